import Verif.Safe.Let
/-
Expressions that the type checker accepts have the type it gives them: let.
-/
namespace Verif.Elab
open Types
open Compile (Var Tc Tcs Flds Brs)

/-! ### The variables of a let -/

theorem letVars_get : (a : Nat) → (xs : List Name) → (ts : List Ptr) → xs.length = ts.length → {j : Nat} → {v : V} → (letVars a xs ts)[j]? = some v →
    v.var = some (.loc (a + j)) ∧ ts[j]? = some v.type
  | _, [], [], _, j, v, h => by simp [letVars] at h
  | a, x :: xs, t :: ts, hl, j, v, h => by
    simp only [letVars] at h
    cases j with
    | zero => simp at h; subst h; exact ⟨rfl, rfl⟩
    | succ j =>
      obtain ⟨h1, h2⟩ := letVars_get (a + 1) xs ts (by simpa using hl) (by simpa using h)
      exact ⟨by rw [h1, show a + 1 + j = a + (j + 1) by omega], by simpa using h2⟩

theorem retype_append : (ts : List Ptr) → (vs ws : List V) → ts.length = vs.length → retype ts (vs ++ ws) = retype ts vs ++ ws
  | [], [], ws, _ => by simp [retype]
  | t :: ts, v :: vs, ws, h => by simp [retype, retype_append ts vs ws (by simpa using h)]

/-- The same variable with another type. -/
structure VTyped (v v' : V) : Prop where
  var : v'.var = v.var
  used : v'.used = v.used

theorem retype_all2 : (ts : List Ptr) → (vs : List V) → ts.length = vs.length → All2 VTyped vs (retype ts vs)
  | [], [], _ => .nil
  | t :: ts, v :: vs, h => .cons ⟨rfl, rfl⟩ (retype_all2 ts vs (by simpa using h))

theorem retype_types : (ts : List Ptr) → (vs : List V) → ts.length = vs.length → (retype ts vs).map (·.type) = ts
  | [], [], _ => rfl
  | t :: ts, v :: vs, h => by simp [retype, retype_types ts vs (by simpa using h)]

theorem vsame_types {as bs : List V} (h : All2 VSame as bs) : bs.map (·.type) = as.map (·.type) := by
  induction h with
  | nil => rfl
  | cons h1 _ ih => simp [h1.type, ih]

theorem letVars_types : (a : Nat) → (xs : List Name) → (ts : List Ptr) → xs.length = ts.length → (letVars a xs ts).map (·.type) = ts
  | _, [], [], _ => rfl
  | a, x :: xs, t :: ts, h => by simp [letVars, letVars_types (a + 1) xs ts (by simpa using h)]

theorem ScSame.withLocals {a b : Scope} (h : ScSame a b) {la lb : List V} (hl : All2 VSame la lb) (x : Nat) :
    ScSame { a with locals := la, allocated := x } { b with locals := lb, allocated := x } :=
  ⟨hl, h.args, h.statics, rfl, h.captured⟩

theorem tenv_append (sc : Scope) (c1 c2 : List V) (x y : Nat) : tenv { sc with locals := c1 ++ c2, allocated := x } = (tenv { sc with locals := c2, allocated := y }).push (c1.reverse.map mask) := by
  simp [tenv, TEnv.push]

theorem TEnv.Le.pushed {E E' : TEnv} (h : TEnv.Le E E') {ls ls' : List (Option Ptr)} (hl : ls'.length = ls.length)
    (hs : ∀ (i : Nat) S, ls[i]? = some (some S) → ls'[i]? = some (some S)) : TEnv.Le (E.push ls) (E'.push ls') := by
  refine (h.push ls).trans ⟨fun v S hv => ?_, by simp [TEnv.push, hl]⟩
  cases v with
  | static i => exact hv
  | arg i => exact hv
  | loc i =>
    simp only [TEnv.get, TEnv.push] at hv ⊢
    by_cases hi : i < E'.locals.length
    · rw [List.getElem?_append_left hi] at hv ⊢
      exact hv
    · rw [List.getElem?_append_right (by omega)] at hv ⊢
      cases hx : ls[i - E'.locals.length]? with
      | none => rw [hx] at hv; cases hv
      | some o =>
        rw [hx] at hv
        cases o with
        | none => cases hv
        | some S' =>
          cases hv
          rw [hs _ _ hx]; rfl

/-- The masked types of the variables. -/
theorem masks {c : List V} {ts : List Ptr} (ht : c.map (·.type) = ts.reverse) {f : Ptr → Option Ptr} (hf : ∀ v ∈ c, v.used = true → ∀ t, f t = some t) :
    (ts.map f).length = (c.reverse.map mask).length ∧ ∀ (i : Nat) S, (c.reverse.map mask)[i]? = some (some S) → (ts.map f)[i]? = some (some S) := by
  have ht' : c.reverse.map (·.type) = ts := by rw [List.map_reverse, ht, List.reverse_reverse]
  refine ⟨by rw [← ht']; simp, fun i S hi => ?_⟩
  rw [← ht']
  simp only [List.getElem?_map, Option.map_eq_some_iff] at hi ⊢
  obtain ⟨v, h1, h2⟩ := hi
  unfold mask at h2
  split at h2
  · rename_i hu
    cases h2
    exact ⟨v.type, ⟨v, h1, rfl⟩, hf v (List.mem_reverse.mp (List.mem_of_getElem? h1)) hu _⟩
  · cases h2

section
variable {M : List Name} {n : Nat} {rec : Rec} {recT : RecT}

theorem push_ok {s : S} {sc : Scope} {rest : List Scope} (hs : SOk s) (hsc : s.scopes = sc :: rest) {xs : List Name} {ts : List Ptr} (hl : xs.length = ts.length) (ht : ∀ t ∈ ts, t < s.heap.length) :
    SOk { s with scopes := { sc with locals := (letVars sc.allocated xs ts).reverse ++ sc.locals, allocated := sc.allocated + xs.length } :: rest } := by
  have hok := hs.scopes
  rw [hsc] at hok
  obtain ⟨h1, h2⟩ := hok
  refine ⟨hs.heap, ⟨⟨?_, h1.args, h1.statics, ?_, ?_, h1.link⟩, h2⟩, by simp⟩
  · intro i v hv
    simp only [List.reverse_append, List.reverse_reverse] at hv
    by_cases hi : i < sc.locals.reverse.length
    · rw [List.getElem?_append_left hi] at hv
      exact h1.locals i v hv
    · rw [List.getElem?_append_right (by omega)] at hv
      obtain ⟨g1, _⟩ := letVars_get _ _ _ hl hv
      rw [g1, h1.allocated]
      simp only [List.length_reverse] at hi ⊢
      rw [show sc.locals.length + (i - sc.locals.length) = i by omega]
  · simp [letVars_length _ _ _ hl, h1.allocated]; omega
  · intro v hv
    simp only [Scope.vars, List.append_assoc, List.mem_append, List.mem_reverse] at hv
    rcases hv with hv | hv
    · obtain ⟨j, hj⟩ := List.getElem?_of_mem hv
      exact ht _ (List.mem_of_getElem? (letVars_get _ _ _ hl hj).2)
    · exact h1.types v (by simpa [Scope.vars, List.append_assoc] using hv)

theorem tcLet_safe (hP : ∀ e, Pres (rec e)) {bs : List Binding} {body : Expr} (hT : ∀ b ∈ bs, ∀ e, b.ann = .inr e → SafeT (recT e)) (hbs : ∀ b ∈ bs, Safe Ca (rec b.expr)) (hbody : Safe Ca (rec body)) :
    Safe Ca (tcLet n rec recT bs body) := by
  intro s s' x hs h
  unfold tcLet at h
  obtain ⟨s0, q, h0, h⟩ := TM.bind_ok.mp h
  cases q with
  | none => cases (TM.pure_ok.mp h).2
  | some ts =>
    obtain ⟨a1, a2, a3, vs, a4⟩ := bindTypes_safe bs [] hT hs h0
    have hl := a4.length
    have hlen : (bs.map (·.name)).length = ts.length := by simp [hl]
    cases hsc : s0.scopes with
    | nil => exact (a1.ne hsc).elim
    | cons sc rest =>
      obtain ⟨s1, s5, sc5, rest5, e1, h2, hs5, e5⟩ := let_frame (letInner_pres (n := n) hP bs ts body) hl hsc h
      have ok1 := push_ok a1 hsc hlen a4.lt
      simp only [List.length_map] at ok1
      rw [← e1] at ok1
      unfold letInner at h2
      obtain ⟨s2, q, h3, h2⟩ := TM.bind_ok.mp h2
      cases q with
      | none => cases (TM.pure_ok.mp h2).2
      | some ds =>
        simp only at h2
        obtain ⟨ok2, st2, defs⟩ := bindDefs_safe bs hbs ts hl ok1 (by rw [e1]; exact a4.lt) h3
        obtain ⟨s2', r, h4, h2⟩ := TM.bind_ok.mp h2
        obtain ⟨e2, sc2, rest2, hs2, hr⟩ := anyUsed_ok h4
        rw [e2] at h2
        obtain ⟨s3, ts', h5, h2⟩ := TM.bind_ok.mp h2
        have hp12 : s0.heap <+: s2.heap := by have := st2.heap; rw [e1] at this; exact this
        obtain ⟨e3, as⟩ := bindAssign_ok bs (a4.prefix hp12 (Nat.le_refl _)) defs.dok ok2.heap.nodes h5
        obtain ⟨s4, u, h6, h2⟩ := TM.bind_ok.mp h2
        obtain ⟨sc2', rest2', e4, e6, _⟩ := onScope_ok.mp h6
        rw [e3, hs2] at e4
        cases e4
        obtain ⟨s4', vac, h7, h2⟩ := TM.bind_ok.mp h2
        have hh4 : s4.heap = s3.heap := by rw [e6]
        obtain ⟨e7, hvac⟩ := anyVacuous_ok ts' (s := s4) (by rw [hh4]; exact as.pre) (by rw [hh4]; exact as.lt) h7
        rw [e7] at h2
        cases vac with
        | true => cases (TM.pure_ok.mp h2).2
        | false =>
          simp only [Bool.false_eq_true, if_false] at h2
          obtain ⟨s6, q, h8, h2⟩ := TM.bind_ok.mp h2
          cases q with
          | none => cases (TM.pure_ok.mp h2).2
          | some bt =>
            obtain ⟨t, tc⟩ := bt
            obtain ⟨e8, e⟩ := TM.pure_ok.mp h2
            cases e
            rw [e8] at hs5 e5
            have mono3 : MonoHeap s3.heap := as.mono ok2.heap (by rw [← hh4]; exact hvac rfl)
            -- the scopes
            have hst := st2.scopes
            rw [e1, hs2] at hst
            simp only at hst
            obtain ⟨hsc12, hrest12⟩ : ScSame { sc with locals := (letVars sc.allocated (bs.map (·.name)) ts).reverse ++ sc.locals, allocated := sc.allocated + bs.length } sc2 ∧ All2 ScSame rest rest2 := by
              cases hst with
              | cons g1 g2 => exact ⟨g1, g2⟩
            obtain ⟨c1, c2, ec, g1, g2⟩ := All2.split_append hsc12.locals
            have hc1 : c1.length = bs.length := by rw [← g1.length_eq]; simp [letVars_length _ _ _ hlen]
            have hts' : ts'.length = bs.length := by rw [as.lens, hl]
            have hc1' : ts'.reverse.length = c1.length := by simp [hts', hc1]
            have ec4 : s4.scopes = { sc2 with locals := retype ts'.reverse c1 ++ c2 } :: rest2 := by
              rw [e6, ← retype_append _ _ _ hc1', ← ec]
            have hok2 := ok2.scopes
            rw [hs2] at hok2
            have hty2 := hok2.1
            have ok4 : SOk s4 := by
              refine ⟨by rw [hh4]; exact mono3, ?_, by rw [ec4]; simp⟩
              rw [ec4, hh4, as.length]
              refine ⟨⟨?_, hty2.args, hty2.statics, ?_, ?_, hty2.link⟩, hok2.2⟩
              · intro i v hv
                have hall : All2 VTyped sc2.locals.reverse (retype ts'.reverse c1 ++ c2).reverse := by
                  rw [ec]
                  exact ((retype_all2 _ _ hc1').append (All2.refl (fun _ => ⟨rfl, rfl⟩) _)).reverse
                obtain ⟨w, hw, hwv⟩ := all2_getElem?_right hall hv
                rw [hwv.var]; exact hty2.locals i w hw
              · rw [hty2.allocated, ec]
                simp [(retype_all2 _ _ hc1').length_eq]
              · intro v hv
                simp only [Scope.vars, List.append_assoc, List.mem_append] at hv
                rcases hv with hv | hv
                · have : v.type ∈ ts'.reverse := by
                    rw [← retype_types _ _ hc1']
                    exact List.mem_map.mpr ⟨v, hv, rfl⟩
                  rw [← as.length]
                  exact as.lt _ (List.mem_reverse.mp this)
                · exact hty2.types v (by rw [Scope.vars, ec]; simp only [List.append_assoc, List.mem_append]; exact .inr hv)
            obtain ⟨ok6, st6, ty6⟩ := hbody _ _ _ ok4 h8
            have hst6 := st6.scopes
            rw [ec4, hs5] at hst6
            obtain ⟨hsc45, hrest45⟩ : ScSame { sc2 with locals := retype ts'.reverse c1 ++ c2 } sc5 ∧ All2 ScSame rest2 rest5 := by
              cases hst6 with
              | cons g1 g2 => exact ⟨g1, g2⟩
            obtain ⟨d1, d2, ed, g3, g4⟩ := All2.split_append hsc45.locals
            have hd1 : d1.length = bs.length := by rw [← g3.length_eq, ← (retype_all2 _ _ hc1').length_eq, hc1]
            have hdrop : sc5.locals.drop bs.length = d2 := by rw [ed, ← hd1]; simp
            rw [hdrop] at e5
            have hok6 := ok6.scopes
            rw [hs5] at hok6
            have hty6 := hok6.1
            have hok0 := a1.scopes
            rw [hsc] at hok0
            have w12 : ScSame sc { sc2 with locals := c2, allocated := sc.allocated } := hsc12.withLocals g2 sc.allocated
            have w25 : ScSame { sc2 with locals := c2, allocated := sc.allocated } { sc5 with locals := d2, allocated := sc.allocated } := hsc45.withLocals g4 sc.allocated
            have w15 := w12.trans w25
            have pre3 : s.heap <+: s3.heap := by
              have := a3.trans hp12
              rw [List.prefix_iff_getElem?] at this ⊢
              intro i hi
              rw [as.other i (fun hv => Nat.lt_irrefl _ (Nat.lt_of_lt_of_le hi (a4.ge i hv)))]
              exact this i hi
            have pre6 : s3.heap <+: s6.heap := by rw [← hh4]; exact st6.heap
            have hs'h : s'.heap = s6.heap := by rw [e5]
            have hs's : s'.scopes = { sc5 with locals := d2, allocated := sc.allocated } :: rest5 := by rw [e5]
            refine ⟨⟨by rw [hs'h]; exact ok6.heap, ?_, by rw [hs's]; simp⟩, ⟨by rw [hs'h]; exact pre3.trans pre6, ?_⟩, by rw [hs'h]; exact ty6.lt, fun H hE hO => ?_⟩
            · rw [hs's, hs'h]
              refine ⟨⟨?_, hty6.args, hty6.statics, ?_, ?_, hty6.link⟩, hok6.2⟩
              · intro i v hv
                refine hty6.locals i v ?_
                rw [ed, List.reverse_append, List.getElem?_append_left (List.getElem?_eq_some_iff.mp hv).1]; exact hv
              · rw [hok0.1.allocated, w15.locals.length_eq]
              · intro v hv
                refine hty6.types v ?_
                simp only [Scope.vars, ed, List.append_assoc, List.mem_append] at hv ⊢
                exact .inr hv
            · rw [← a2, hsc, hs's]
              exact .cons w15 (All2.trans (R := ScSame) (fun _ _ _ h h' => ScSame.trans h h') hrest12 hrest45)
            · rw [hs'h] at hE
              rw [hs's]
              have hE3 : Ends s3.heap H := (Ends.prefix pre6).trans hE
              have hE2 : Ends s2.heap H := as.ends.trans hE3
              obtain ⟨q1, q2⟩ := as.same H hE3 hO.uniform
              simp only [TcTy, tenvs]
              refine ⟨ts, ts', ?_, q2, ?_⟩
              · refine TcsTy.mono _ ?_ (TcsTy.conv _ (tcsTy_of defs.typed hE2 hO) q1)
                rw [hs2]
                simp only [tenvs]
                have e9 : sc2 = { sc2 with locals := c1 ++ c2, allocated := sc2.allocated } := by rw [← ec]
                rw [e9, tenv_append _ _ _ _ sc.allocated]
                have hm := masks (c := c1) (ts := ts) (by rw [vsame_types g1, List.map_reverse, letVars_types _ _ _ hlen]) (f := fun t => if r = true then some t else none) (by
                  intro v hv hu t
                  have : r = true := by
                    rw [hr, ec, ← hc1]
                    simp only [List.take_left', List.any_eq_true]
                    exact ⟨v, hv, hu⟩
                  simp [this])
                exact w25.le.pushed hm.1 hm.2
              · refine TcTy.mono _ ?_ (ty6.ty H hE hO)
                rw [hs5]
                simp only [tenvs]
                have e9 : sc5 = { sc5 with locals := d1 ++ d2, allocated := sc5.allocated } := by rw [← ed]
                rw [e9, tenv_append _ _ _ _ sc.allocated]
                have hm := masks (c := d1) (ts := ts') (by rw [vsame_types g3, retype_types _ _ hc1']) (f := some) (fun _ _ _ _ => rfl)
                exact (TEnv.Le.refl _).pushed hm.1 hm.2

end
end Verif.Elab
