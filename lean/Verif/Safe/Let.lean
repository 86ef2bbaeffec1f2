import Verif.Safe.LetHeap
/-
Expressions that the type checker accepts have the type it gives them: let.
-/
namespace Verif.Elab
open Types
open Compile (Var Tc Tcs Flds Brs)

section
variable {M : List Name} {n : Nat} {rec : Rec} {recT : RecT}

theorem bindTypes_safe : (bs : List Binding) → (prev : List Name) → (∀ b ∈ bs, ∀ e, b.ann = .inr e → SafeT (recT e)) → {s s' : S} → {ts : List Ptr} → SOk s →
    bindTypes n recT prev bs s = .ok (s', some ts) → SOk s' ∧ s'.scopes = s.scopes ∧ s.heap <+: s'.heap ∧ ∃ vs, BTs s'.heap s.heap.length bs ts vs
  | [], prev, _, s, s', ts, hs, h => by
    unfold bindTypes at h
    obtain ⟨rfl, e⟩ := TM.pure_ok.mp h
    cases e
    exact ⟨hs, rfl, List.prefix_rfl, [], .nil⟩
  | b :: bs, prev, hT, s, s', ts, hs, h => by
    unfold bindTypes at h
    obtain ⟨s1, o, h1, h⟩ := TM.bind_ok.mp h
    obtain ⟨s2, ok, h2, h⟩ := TM.bind_ok.mp h
    obtain ⟨s3, o3, h3, h⟩ := TM.bind_ok.mp h
    cases o with
    | none => cases (TM.pure_ok.mp h).2
    | some t =>
      cases o3 with
      | none => cases (TM.pure_ok.mp h).2
      | some ts' =>
        obtain ⟨e3, e⟩ := TM.pure_ok.mp h
        split at e
        · cases e
          have e2 : s2 = s1 := by
            unfold checkNameSpace at h2
            exact (TM.readH_ok.mp h2).1
          rw [e2] at h3
          rw [e3]
          cases ha : b.ann with
          | inl k =>
            rw [ha] at h1
            simp only at h1
            obtain ⟨hh, t', h4, h1⟩ := TM.liftH_bind.mp h1
            obtain ⟨e1, e⟩ := TM.pure_ok.mp h1
            cases e
            obtain ⟨g1, g2, v, k0, g3, g4, g5⟩ := newVarType_mono hs.heap h4
            have hs1 : SOk s1 := by rw [e1]; exact hs.withHeap g2 g1
            have hp1 : s.heap <+: s1.heap := by rw [e1]; exact g2
            have hsc : s1.scopes = s.scopes := by rw [e1]
            obtain ⟨m1, m2, m3, vs, m4⟩ := bindTypes_safe bs _ (fun b hb => hT b (by simp [hb])) hs1 h3
            have hh1 : hh = s1.heap := by rw [e1]
            rw [hh1] at g3 g4
            refine ⟨m1, m2.trans hsc, hp1.trans m3, v :: vs, .var ha (g3.ends (.prefix m3)) (prefix_node m3 g4) g5 ?_ (m4.prefix List.prefix_rfl hp1.length_le)⟩
            intro hv
            have h5 : s1.heap.length ≤ v := m4.ge v hv
            have h6 : v < s1.heap.length := node_lt g4
            exact Nat.lt_irrefl _ (Nat.lt_of_lt_of_le h6 h5)
          | inr e =>
            rw [ha] at h1
            obtain ⟨g1, g2, g3, g4⟩ := hT b (by simp) e ha _ _ _ hs h1
            obtain ⟨m1, m2, m3, vs, m4⟩ := bindTypes_safe bs _ (fun b hb => hT b (by simp [hb])) g1 h3
            exact ⟨m1, m2.trans g2, g3.trans m3, vs, .typ ha (prefix_lt m3 g4) (m4.prefix List.prefix_rfl g3.length_le)⟩
        · cases e

/-- The definitions of a let have the types of the variables. -/
inductive DefsOk (Ca : Prop) (s : S) : List Binding → List Ptr → List (Ptr × Tc) → Prop where
  | nil : DefsOk Ca s [] [] []
  | cons {b bs t ts d ds} : Typed Ca s d → (∀ e, b.ann = .inr e → ∀ H, Ends s.heap H → Uniform Ca H → SameType H [] t d.1) → DefsOk Ca s bs ts ds → DefsOk Ca s (b :: bs) (t :: ts) (d :: ds)

theorem bindDefs_safe : (bs : List Binding) → (∀ b ∈ bs, Safe Ca (rec b.expr)) → (ts : List Ptr) → ts.length = bs.length → {s s' : S} → {ds : List (Ptr × Tc)} → SOk s → (∀ t ∈ ts, t < s.heap.length) →
    bindDefs n rec bs ts s = .ok (s', some ds) → SOk s' ∧ TStep s s' ∧ DefsOk Ca s' bs ts ds
  | [], _, [], _, s, s', ds, hs, _, h => by
    unfold bindDefs at h
    obtain ⟨rfl, e⟩ := TM.pure_ok.mp h
    cases e
    exact ⟨hs, .refl _, .nil⟩
  | b :: bs, hb, t :: ts, hl, s, s', ds, hs, ht, h => by
    unfold bindDefs at h
    obtain ⟨s1, o, h1, h⟩ := TM.bind_ok.mp h
    cases o with
    | none => cases (TM.pure_ok.mp h).2
    | some r =>
      obtain ⟨dt, tc⟩ := r
      obtain ⟨k1, k2, k3⟩ := hb b (by simp) _ _ _ hs h1
      simp only at h
      obtain ⟨s2, ok, h2, h⟩ := TM.bind_ok.mp h
      cases ok with
      | false => cases (TM.pure_ok.mp h).2
      | true =>
        simp only [Bool.not_true, Bool.false_eq_true, if_false] at h
        obtain ⟨s3, o, h3, h⟩ := TM.bind_ok.mp h
        cases o with
        | none => cases (TM.pure_ok.mp h).2
        | some ds' =>
          obtain ⟨e3, e⟩ := TM.pure_ok.mp h
          cases e
          have h2' : s2 = s1 ∧ ∀ e, b.ann = .inr e → ∀ H, Ends s1.heap H → Uniform Ca H → SameType H [] t dt := by
            cases ha : b.ann with
            | inl k =>
              rw [ha] at h2
              obtain ⟨k', _, h2⟩ := TM.readH_bind.mp h2
              exact ⟨(TM.pure_ok.mp h2).1, by simp⟩
            | inr e =>
              rw [ha] at h2
              obtain ⟨e2, h2⟩ := TM.readH_ok.mp h2
              refine ⟨e2, fun _ _ H hE hO => ?_⟩
              exact typesEqual_same k1.heap (prefix_lt k2.heap (ht t (by simp))) k3.lt h2 hE hO
          rw [h2'.1] at h3
          obtain ⟨g1, g2, g3⟩ := bindDefs_safe bs (fun b hb' => hb b (by simp [hb'])) ts (by simpa using hl) k1 (fun t' ht' => prefix_lt k2.heap (ht t' (by simp [ht']))) h3
          rw [e3]
          exact ⟨g1, k2.trans g2, .cons (k3.step g2) (fun e he H hE hO => h2'.2 e he H ((Ends.prefix g2.heap).trans hE) hO) g3⟩

theorem set_ends {h : Heap} {v : Ptr} {k k0 : Kind} {w : Option Ptr} (hv : h[v]? = some (.var k0 none)) : Ends h (h.set v (.var k w)) := by
  intro p m hp
  by_cases e : v = p
  · subst e
    rw [hv] at hp; cases hp
    exact ⟨_, List.getElem?_set_self (node_lt hv), .inr (.inl ⟨_, _, _, rfl, rfl⟩)⟩
  · exact ⟨m, by rw [List.getElem?_set_ne e]; exact hp, .refl _⟩

theorem set_pre {h : Heap} (hm : PreHeap h) {v : Ptr} {k0 : Kind} {l : Nat} {w : Ptr} (hv : h[v]? = some (.var k0 none)) (hw : w < h.length) : PreHeap (h.set v (.var (.basic l) (some w))) := by
  have lift : ∀ m, NodeIn h m → NodeIn (h.set v (.var (.basic l) (some w))) m := by
    intro m hn
    cases m with
    | poly => exact hn
    | polyApply => exact hn
    | abstract q u =>
      refine ⟨by simpa using hn.1, ?_⟩
      obtain ⟨path, hp⟩ := hn.2
      refine ⟨path, ?_⟩
      rw [List.getElem?_set_ne]; exact hp
      intro e; subst e; rw [hv] at hp; cases hp
    | package => exact hn
    | var => exact ⟨hn.1, fun w' hw' => by simpa using hn.2 w' hw'⟩
    | data dt fs => exact fun f hf => by simpa using hn f hf
    | func => exact ⟨by simpa using hn.1, by simpa using hn.2⟩
    | type => simpa [NodeIn] using hn
  intro p m hp
  by_cases e : v = p
  · subst e
    rw [List.getElem?_set_self (node_lt hv)] at hp
    cases hp
    exact ⟨⟨_, rfl⟩, by intro w' e; cases e; simpa using hw⟩
  · rw [List.getElem?_set_ne e] at hp
    exact lift m (hm _ _ hp)

theorem BTs.set {h : Heap} {L : Nat} {bs ts vs} (hb : BTs h L bs ts vs) {v : Ptr} {k k0 : Kind} {w : Option Ptr} (hv : h[v]? = some (.var k0 none)) (hn : v ∉ vs) :
    BTs (h.set v (.var k w)) L bs ts vs := by
  induction hb with
  | nil => exact .nil
  | var h1 h2 h3 h4 h5 _ ih =>
    simp only [List.mem_cons, not_or] at hn
    exact .var h1 (h2.ends (set_ends hv)) (by rw [List.getElem?_set_ne hn.1]; exact h3) h4 h5 (ih hn.2)
  | typ h1 h2 _ ih => exact .typ h1 (by simpa using h2) (ih hn)

/-- The type variable at `v` gets its value from the type at `t`. -/
def Gets (h : Heap) (t v : Ptr) : Prop := (∃ k, h[v]? = some (.var k (some t))) ∨ ∃ l, TypeChain h (l + 1) t v

/-- What the assignment of types to the variables of a let does. -/
structure Assigned (Ca : Prop) (h h' : Heap) (vs ts ds ts' : List Ptr) : Prop where
  pre : PreHeap h'
  length : h'.length = h.length
  ends : Ends h h'
  other : ∀ p, p ∉ vs → h'[p]? = h[p]?
  lt : ∀ t ∈ ts', t < h'.length
  gets : ∀ v ∈ vs, ∃ t ∈ ts', Gets h' t v
  same : ∀ H, Ends h' H → Uniform Ca H → All2 (SameType H []) ds ts ∧ All2 (SameType H []) ts ts'
  lens : ts'.length = ts.length

/-- The values for the variables of a let. -/
inductive DOk (Ca : Prop) (h : Heap) : List Binding → List Ptr → List Ptr → Prop where
  | nil : DOk Ca h [] [] []
  | cons {b bs t ts d ds} : d < h.length → (∀ e, b.ann = .inr e → ∀ H, Ends h H → Uniform Ca H → SameType H [] t d) → DOk Ca h bs ts ds → DOk Ca h (b :: bs) (t :: ts) (d :: ds)

theorem DefsOk.dok {s : S} {bs ts ds} (h : DefsOk Ca s bs ts ds) : DOk Ca s.heap bs ts (ds.map (·.1)) := by
  induction h with
  | nil => exact .nil
  | cons h1 h2 _ ih => exact .cons h1.lt h2 ih

theorem DefsOk.typed {s : S} {bs ts ds} (h : DefsOk Ca s bs ts ds) : ∀ d ∈ ds, Typed Ca s d := by
  induction h with
  | nil => simp
  | cons h1 _ _ ih =>
    simp only [List.mem_cons, forall_eq_or_imp]
    exact ⟨h1, ih⟩

theorem DOk.ends {h h' : Heap} (hE : Ends h h') (hl : h'.length = h.length) {bs ts ds} (hd : DOk Ca h bs ts ds) : DOk Ca h' bs ts ds := by
  induction hd with
  | nil => exact .nil
  | cons h1 h2 _ ih => exact .cons (by rw [hl]; exact h1) (fun e he H hE' hO => h2 e he H (hE.trans hE') hO) ih

theorem Gets.ends {h h' : Heap} (hE : Ends h h') {t v : Ptr} (hg : Gets h t v) : Gets h' t v := by
  rcases hg with ⟨k, hg⟩ | ⟨l, hc⟩
  · obtain ⟨n', h1, h2⟩ := hE _ _ hg
    rcases h2 with rfl | ⟨_, _, _, h2, _⟩ | ⟨_, _, h2, _⟩
    · exact .inl ⟨k, h1⟩
    · cases h2
    · cases h2
  · exact .inr ⟨l, hc.ends hE⟩

theorem var_same {h H : Heap} (hE : Ends h H) {k : Kind} {v w : Ptr} (hg : h[v]? = some (.var k (some w))) : SameType H [] v w := by
  obtain ⟨n', h1, h2⟩ := hE _ _ hg
  rcases h2 with rfl | ⟨_, _, _, h2, _⟩ | ⟨_, _, h2, _⟩
  · exact same_of_is (is_value h1)
  · cases h2
  · cases h2

theorem bindAssign_ok {L : Nat} : (bs : List Binding) → {ts vs ds : List Ptr} → {s : S} → BTs s.heap L bs ts vs → DOk Ca s.heap bs ts ds → PreHeap s.heap → {s' : S} → {ts' : List Ptr} →
    bindAssign n bs ts ds s = .ok (s', ts') → s'.scopes = s.scopes ∧ Assigned Ca s.heap s'.heap vs ts ds ts'
  | [], ts, vs, ds, s, hb, hd, hm, s', ts', h => by
    cases hb
    cases hd
    unfold bindAssign at h
    obtain ⟨rfl, rfl⟩ := TM.pure_ok.mp h
    exact ⟨rfl, hm, rfl, .refl _, fun _ _ => rfl, by simp, by simp, fun H _ _ => ⟨.nil, .nil⟩, rfl⟩
  | b :: bs, _, _, _, s, hb, hd, hm, s', ts', h => by
    cases hd with
    | @cons _ _ t ts d ds hd1 hd2 hd3 =>
      unfold bindAssign at h
      obtain ⟨s1, t1, g1, h⟩ := TM.bind_ok.mp h
      obtain ⟨s2, ts2, g2, h⟩ := TM.bind_ok.mp h
      obtain ⟨e2, e⟩ := TM.pure_ok.mp h
      subst e
      rw [e2]
      cases hb with
      | @var _ k _ _ _ v vs k0 h1 h2 h3 h4 h5 hb =>
        rw [h1] at g1
        simp only at g1
        obtain ⟨hh, _, g3, g1⟩ := TM.liftH_bind.mp g1
        obtain ⟨e1, e⟩ := TM.pure_ok.mp g1
        rw [R.bind_ok] at g3
        obtain ⟨h', g3, g4⟩ := g3
        cases g4
        obtain ⟨w, kk, m, c1, c2, c3⟩ := assignVar_ok h2 h3 g3
        have hw : w < s.heap.length := c1.lt hm hd1
        obtain ⟨l, rfl⟩ := getKind_basic hm m hw c2
        subst c3
        have hE := set_ends (k := .basic l) (w := some w) h3
        have hm1 := set_pre (l := l) hm h3 hw
        have hb1 := hb.set (k := .basic l) (w := some w) h3 h5
        have hs1 : s1.heap = s.heap.set v (.var (.basic l) (some w)) := by rw [e1]
        have hset : s1.heap[v]? = some (.var (.basic l) (some w)) := by rw [hs1]; exact List.getElem?_set_self (node_lt h3)
        have hoth : ∀ p, p ≠ v → s1.heap[p]? = s.heap[p]? := by intro p hp; rw [hs1, List.getElem?_set_ne (Ne.symm hp)]
        have hlen : s1.heap.length = s.heap.length := by rw [hs1]; simp
        rw [← hs1] at hE hm1 hb1
        obtain ⟨k1, k2⟩ := bindAssign_ok bs hb1 (hd3.ends hE hlen) hm1 g2
        have hsame : ∀ H, Ends s2.heap H → SameType H [] t d := fun H hH =>
          same_chain ((h2.ends hE).ends (k2.ends.trans hH)) ((c1.ends hE).ends (k2.ends.trans hH)) (var_same (k2.ends.trans hH) hset)
        refine ⟨by rw [k1, e1], k2.pre, k2.length.trans hlen, hE.trans k2.ends, ?_, ?_, ?_, ?_, by simp [k2.lens]⟩
        · intro p hp
          simp only [List.mem_cons, not_or] at hp
          rw [k2.other p hp.2, hoth p hp.1]
        · simp only [List.mem_cons, forall_eq_or_imp]
          refine ⟨?_, k2.lt⟩
          rw [k2.length, hlen, e]
          split
          · exact hd1
          · exact h2.lt_left (node_lt h3)
        · simp only [List.mem_cons, forall_eq_or_imp, exists_eq_or_imp]
          refine ⟨.inl ?_, fun v' hv' => .inr (k2.gets v' hv')⟩
          refine Gets.ends k2.ends ?_
          rw [e]
          split
          · rename_i hk
            rw [hk] at c1
            cases c1
            exact .inl ⟨_, hset⟩
          · rename_i hk
            refine .inr ⟨kindLevel k - 1, ?_⟩
            rw [show kindLevel k - 1 + 1 = kindLevel k by omega]
            exact h2.ends hE
        · intro H hH hO
          obtain ⟨q1, q2⟩ := k2.same H hH hO
          refine ⟨.cons (hsame H hH).symm q1, .cons ?_ q2⟩
          rw [e]
          split
          · exact hsame H hH
          · exact sameType_refl
      | @typ _ e' _ _ _ vs h1 h2 hb =>
        rw [h1] at g1
        obtain ⟨e1, rfl⟩ := TM.pure_ok.mp g1
        rw [e1] at g2
        obtain ⟨k1, k2⟩ := bindAssign_ok bs hb hd3 hm g2
        refine ⟨k1, k2.pre, k2.length, k2.ends, k2.other, ?_, ?_, ?_, by simp [k2.lens]⟩
        · simp only [List.mem_cons, forall_eq_or_imp]
          exact ⟨by rw [k2.length]; exact h2, k2.lt⟩
        · intro v hv
          obtain ⟨t', ht, hg⟩ := k2.gets v hv
          exact ⟨t', by simp [ht], hg⟩
        · intro H hH hO
          obtain ⟨q1, q2⟩ := k2.same H hH hO
          exact ⟨.cons (hd2 e' h1 H (k2.ends.trans hH) hO).symm q1, .cons sameType_refl q2⟩

/-! ### Types that are not vacuous -/

theorem stripType_mono {h : Heap} (hm : PreHeap h) : (m : Nat) → {t : Ptr} → {h' : Heap} → {o : Option Ptr} → t < h.length → stripType m h (some t) = .ok (h', o) →
    h' = h ∧ ∀ q, o = some q → ∀ l v, TypeChain h (l + 1) t v → ∃ p, NormalTo h p v
  | 0, t, h', o, _, hr => by cases hr
  | m + 1, t, h', o, ht, hr => by
    rw [stripType, R.bind_ok] at hr
    obtain ⟨nd, h1, h2⟩ := hr
    rw [Elab.get_ok] at h1
    cases nd with
    | type u =>
      simp only at h2
      rw [R.bind_ok] at h2
      obtain ⟨⟨h3, o2⟩, h4, h5⟩ := h2
      obtain ⟨e, g⟩ := normal_inv m hm.mono0 (hm _ _ h1) h4
      have e := e.symm
      subst e
      simp only at h5
      cases o2 with
      | none =>
        cases m with
        | zero => cases h5
        | succ m =>
          rw [stripType] at h5; cases h5
          exact ⟨rfl, by simp⟩
      | some p =>
        have hp : NormalTo h p u := g p rfl
        have hp' : p < h.length := (hp.mem hm.mono0 (hm _ _ h1))
        obtain ⟨e, g2⟩ := stripType_mono hm m hp' h5
        refine ⟨e, fun q hq l v hc => ?_⟩
        cases hc with
        | succ hg hc =>
          rw [h1] at hg; cases hg
          cases l with
          | zero => cases hc; exact ⟨p, hp⟩
          | succ l =>
            cases hc with
            | succ hg' hc' =>
              have : p = u := by
                cases hp with
                | here => rfl
                | value hx _ => rw [hg'] at hx; cases hx
              subst this
              exact g2 q hq l v (.succ hg' hc')
    | _ =>
      cases h2
      refine ⟨rfl, fun q _ l v hc => ?_⟩
      cases hc with
      | succ hg _ => rw [h1] at hg; cases hg

theorem stripPoly_mono {h : Heap} (hm : PreHeap h) {m : Nat} {o o' : Option Ptr} {h' : Heap} (hr : stripPoly m h o = .ok (h', o')) : h' = h ∧ o' = o := by
  cases m with
  | zero => cases hr
  | succ m =>
    cases o with
    | none => rw [stripPoly] at hr; cases hr; exact ⟨rfl, rfl⟩
    | some t =>
      rw [stripPoly, R.bind_ok] at hr
      obtain ⟨nd, h1, h2⟩ := hr
      rw [Elab.get_ok] at h1
      cases nd with
      | poly => exact (hm _ _ h1).elim
      | _ => cases h2; exact ⟨rfl, rfl⟩

theorem vacuous_mono {h : Heap} (hm : PreHeap h) {t : Ptr} (ht : t < h.length) {h' : Heap} {b : Bool} (hr : typeIsVacuous n h t = .ok (h', b)) :
    h' = h ∧ (b = false → ∀ v, Gets h t v → ∃ p, NormalTo h p v) := by
  rw [typeIsVacuous, R.bind_ok] at hr
  obtain ⟨⟨h1, o1⟩, g1, hr⟩ := hr
  obtain ⟨e1, k1⟩ := normal_inv n hm.mono0 ht g1
  have e1 := e1.symm
  subst e1
  simp only at hr
  rw [R.bind_ok] at hr
  obtain ⟨⟨h2, o2⟩, g2, hr⟩ := hr
  cases o1 with
  | none =>
    cases n with
    | zero => cases g2
    | succ n =>
      rw [stripType] at g2; cases g2
      simp only at hr
      rw [R.bind_ok] at hr
      obtain ⟨⟨h3, o3⟩, g3, hr⟩ := hr
      obtain ⟨rfl, rfl⟩ := stripPoly_mono hm g3
      cases hr
      exact ⟨rfl, by simp⟩
  | some p =>
    have hp : NormalTo h p t := k1 p rfl
    obtain ⟨e2, k2⟩ := stripType_mono hm n (hp.mem hm.mono0 ht) g2
    have e2 := e2.symm
    subst e2
    simp only at hr
    rw [R.bind_ok] at hr
    obtain ⟨⟨h3, o3⟩, g3, hr⟩ := hr
    obtain ⟨e3, rfl⟩ := stripPoly_mono hm g3
    cases hr
    refine ⟨e3, fun hb v hg => ?_⟩
    rcases hg with ⟨k, hg⟩ | ⟨l, hc⟩
    · exact ⟨p, .value hg hp⟩
    · simp only [Option.isNone_eq_false_iff, Option.isSome_iff_exists] at hb
      obtain ⟨q, rfl⟩ := hb
      have : p = t := by
        cases hc with
        | succ hg _ =>
          cases hp with
          | here => rfl
          | value hx _ => rw [hg] at hx; cases hx
      subst this
      exact k2 q rfl l v hc

theorem anyVacuous_ok : (ts : List Ptr) → {s s' : S} → PreHeap s.heap → (∀ t ∈ ts, t < s.heap.length) → {b : Bool} → anyVacuous n ts s = .ok (s', b) →
    s' = s ∧ (b = false → ∀ t ∈ ts, ∀ v, Gets s.heap t v → ∃ p, NormalTo s.heap p v)
  | [], s, s', _, _, b, h => by
    unfold anyVacuous at h
    exact ⟨(TM.pure_ok.mp h).1, by simp⟩
  | t :: ts, s, s', hm, ht, b, h => by
    unfold anyVacuous at h
    obtain ⟨hh, b1, h1, h⟩ := TM.liftH_bind.mp h
    obtain ⟨e, k1⟩ := vacuous_mono hm (ht t (by simp)) h1
    subst e
    obtain ⟨s2, b2, h2, h⟩ := TM.bind_ok.mp h
    obtain ⟨e2, k2⟩ := anyVacuous_ok ts (s := { heap := s.heap, scopes := s.scopes }) hm (fun t' ht' => ht t' (by simp [ht'])) h2
    obtain ⟨e3, e⟩ := TM.pure_ok.mp h
    refine ⟨e3.trans e2, fun hb => ?_⟩
    rw [hb] at e
    have e := e.symm
    simp only [Bool.or_eq_false_iff] at e
    simp only [List.mem_cons, forall_eq_or_imp]
    exact ⟨k1 e.1, k2 e.2⟩

theorem Assigned.mono {h h' : Heap} {vs ts ds ts' : List Ptr} (hm : MonoHeap h) (ha : Assigned Ca h h' vs ts ds ts') (hv : ∀ t ∈ ts', ∀ v, Gets h' t v → ∃ p, NormalTo h' p v) : MonoHeap h' := by
  refine ⟨ha.pre, fun p hp => ?_⟩
  rw [ha.length] at hp
  obtain ⟨q, hq⟩ := hm.proper p hp
  have hq' := hq
  have hfin : ∃ q', Is h' [] q' q := by
    by_cases hvs : q ∈ vs
    · obtain ⟨t, ht, hg⟩ := ha.gets q hvs
      obtain ⟨p', hn⟩ := hv t ht q hg
      exact ⟨p', ha.pre.is_normal hn⟩
    · obtain ⟨nd, hnd⟩ : ∃ nd, h[q]? = some nd := ⟨h[q]'(is_lt hq), List.getElem?_eq_getElem _⟩
      have hnd' : h'[q]? = some nd := by rw [ha.other q hvs]; exact hnd
      refine ⟨q, .here (ha.pre.final hnd' ?_)⟩
      intro k v e
      subst e
      -- a type that stands for itself has no value
      have : ∀ {p q : Ptr}, Is h [] q p → ∀ k v, h[q]? ≠ some (.var k (some v)) := by
        intro p q hi
        induction hi with
        | here hf => exact fun k v hg => hf.noValue k v hg
        | value _ _ ih => exact ih
        | inferred _ _ _ ih => exact ih
        | unwrap _ _ _ ih => exact ih
      exact this hq k v hnd
  obtain ⟨q', hq''⟩ := hfin
  exact ⟨q', lift_is ha.ends hq hq''⟩

end
end Verif.Elab
