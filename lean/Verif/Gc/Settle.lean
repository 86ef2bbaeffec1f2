import Verif.Gc.Alloc
/-
Popping and compacting a frame preserve the invariant.  Both move the objects of the top frame `t`
to the `unmarked` list of a frame `c` (its caller or itself), except for the values `E` that are
kept.
-/
namespace Verif.Gc

/-- What stays reachable when the top frame only keeps `E`: either it does not belong to the top
frame, or there is a path to it from `E` through objects of the top frame. -/
theorem keep_acc {h R K} (inv : Inv h R [] K) {E : List Val} {rt : Val → Prop}
    (hE : ∀ v ∈ E, Acc h R v ∧ ∀ s, v ≠ .stk s)
    (hrt : ∀ v, rt v → (∃ d, d < h.top ∧ v ∈ R d) ∨ v ∈ E) {w}
    (hw : Acc' h.fields h.sfields h.sgc rt w) :
    Acc h R w ∧ ((∀ e, VOwn h.lists h.gcFrame h.sframe w e → e < h.top) ∨
      ∃ x, w = .gc x ∧ Own h.lists h.gcFrame x h.top ∧
        Path h.fields (fun y => .gc y ∈ E) (fun y => Own h.lists h.gcFrame y h.top) x) := by
  induction hw with
  | imm => exact ⟨.imm, .inl fun e he => he.elim⟩
  | @root v hv =>
    rcases hrt v hv with ⟨d, hd, hv⟩ | hv
    · refine ⟨.root ⟨d, Nat.le_of_lt hd, hv⟩, .inl fun e he => ?_⟩
      have := inv.rootDepth (Nat.le_of_lt hd) hv he
      omega
    · refine ⟨(hE v hv).1, ?_⟩
      cases v with
      | imm n => exact .inl fun e he => he.elim
      | uninit => exact .inl fun e he => he.elim
      | stk s => exact absurd rfl ((hE _ hv).2 s)
      | gc x =>
        by_cases hx : Own h.lists h.gcFrame x h.top
        · exact .inr ⟨x, rfl, hx, .base hv⟩
        · refine .inl fun e he => ?_
          have h1 := inv.ownTop he
          have h2 : e ≠ h.top := fun e' => hx (e' ▸ he)
          omega
  | @step v w _ he ih =>
    refine ⟨.step ih.1 he, ?_⟩
    rcases ih with ⟨hv, h1 | ⟨x, rfl, h1, hp⟩⟩
    · refine .inl fun e hew => ?_
      have : ∃ d, VOwn h.lists h.gcFrame h.sframe v d := by
        cases v with
        | gc x =>
          obtain ⟨d, _, hd⟩ := inv.hasOwn (inv.accK hv)
          exact ⟨d, hd⟩
        | stk s => exact ⟨_, rfl⟩
        | imm => exact he.elim
        | uninit => exact he.elim
      obtain ⟨d, hd⟩ := this
      have := inv.edgeDepth hv he hd hew
      have := h1 d hd
      omega
    · cases w with
      | imm n => exact .inl fun e he => he.elim
      | uninit => exact .inl fun e he => he.elim
      | stk s => exact absurd he.1 (inv.ucStk (inv.accLive hv) s)
      | gc b =>
        by_cases hx : Own h.lists h.gcFrame b h.top
        · exact .inr ⟨b, rfl, hx, .step hp he.1 hx⟩
        · refine .inl fun e hew => ?_
          have h1 := inv.ownTop hew
          have h2 : e ≠ h.top := fun e' => hx (e' ▸ hew)
          omega

theorem Path.exG {f G W a} (h : Path f G W a) : ∃ b, G b := by
  induction h with
  | base h => exact ⟨_, h⟩
  | step _ _ _ ih => exact ih

def settled (h : Heap) (c : Nat) (ls : Lists) (gf mg : Nat → Nat) (gfr : Nat) (int : Bool)
    (sv : List Addr) (nx : Option Nat) : Heap :=
  { h with top := c, salive := fun s => h.salive s && h.sframe s != h.top, lists := ls,
           genF := gf, maxGen := mg, gcFrame := gfr, interrupted := int, save := sv,
           gcNext := nx }

theorem settle_inv {h R K} (inv : Inv h R [] K) {c : Nat} {E : List Val} {ls : Lists}
    {gf mg : Nat → Nat} {gfr : Nat} {int : Bool} {sv : List Addr} {nx : Option Nat}
    {R' : Nat → List Val} (hct : c ≤ h.top)
    (hE : ∀ v ∈ E, Acc h R v ∧ ∀ s, v ≠ .stk s)
    (hm : ∀ x l, x ∈ ls l ↔
      if .gc x ∈ E ∧ h.gcFrame = h.top ∧ h.gcMin ≤ h.gen x ∧ h.gen x ≠ h.gcGen ∧ h.gen x < h.gcMax
      then l = .gcMarked
      else if .gc x ∈ E ∧ h.minGen h.top ≤ h.gen x then l = .marked c
      else (x ∈ h.lists l ∧ l ≠ .alloced h.top ∧ l ≠ .marked h.top ∧ l ≠ .unmarked h.top) ∨
        (l = .unmarked c ∧ (x ∈ h.lists (.alloced h.top) ∨ x ∈ h.lists (.marked h.top) ∨
          x ∈ h.lists (.unmarked h.top))))
    (hnd : ∀ l, (ls l).Nodup)
    (hgfr : gfr = if h.gcFrame = h.top then c else h.gcFrame)
    (hint : int = (h.interrupted || decide (h.gcFrame = h.top)))
    (hsv : ∀ x, x ∈ sv ↔ if h.gcFrame = h.top then
      .gc x ∈ E ∧ h.gcMin ≤ h.gen x ∧ h.gen x ≠ h.gcGen ∧ h.gen x < h.gcMax else x ∈ h.save)
    (hnx : nx = if h.gcNext = none ∨ h.gcNext = some h.top then some c else h.gcNext)
    (hlow : ∀ d, d < c → gf d = h.genF d ∧ mg d = h.maxGen d)
    (hc1 : h.minGen c ≤ gf c ∧ gf c < mg c ∧ h.maxGen c ≤ mg c)
    (hc2 : c < h.top → gf c = h.genF c) (hc3 : c = h.top → gf c = h.maxGen c)
    (hM : h.maxGen h.top ≤ mg c ∨ (c < h.top ∧ (h.gcFrame = h.top → h.lists .gcMarked = []) ∧
      ∀ x, .gc x ∈ E → ¬ Own h.lists h.gcFrame x h.top))
    (hc4 : h.top ≤ c + 1)
    (hR : ∀ d w, d ≤ c → (w ∈ R' d ↔ (w ∈ R d ∧ d < h.top) ∨ (d = c ∧ w ∈ E))) :
    Inv (settled h c ls gf mg gfr int sv nx) R' [] K := by
  have hrt : ∀ v, Rt c R' v → (∃ d, d < h.top ∧ v ∈ R d) ∨ v ∈ E := by
    rintro v ⟨d, hd, hv⟩
    rcases (hR d v hd).mp hv with h1 | h1
    · exact .inl ⟨d, h1.2, h1.1⟩
    · exact .inr h1.2
  have keep := fun {w} (hw : Acc' h.fields h.sfields h.sgc (Rt c R') w) => keep_acc inv hE hrt hw
  have acc : ∀ {w}, Acc' h.fields h.sfields h.sgc (Rt c R') w → Acc h R w := fun hw => (keep hw).1
  -- facts about the kept values
  have young_own : ∀ {x}, Acc h R (.gc x) → h.minGen h.top ≤ h.gen x →
      Own h.lists h.gcFrame x h.top := by
    intro x hx hg
    obtain ⟨d, hd, ho⟩ := inv.hasOwn (inv.accK hx)
    by_cases hdt : d = h.top
    · exact hdt ▸ ho
    · have h1 := inv.accGen hx ho
      have h2 := inv.chain (d := d) (e := h.top) (by omega) (Nat.le_refl _)
      omega
  have own_young : ∀ {x}, Acc h R (.gc x) → Own h.lists h.gcFrame x h.top →
      h.minGen h.top ≤ h.gen x := fun hx ho => (inv.accGen hx ho).1
  have gG : ∀ {x}, h.gcFrame = h.top → h.gcMin ≤ h.gen x → h.minGen h.top ≤ h.gen x := by
    intro x he hg
    have := inv.gcg.2.2
    rw [he] at this
    omega
  have minT : h.gcFrame = h.top → h.minGen h.top ≤ h.gcMin := by
    intro he
    have := inv.gcg.2.2
    rwa [he] at this
  -- a kept object in the collector's range is one of the objects it works on
  have rangeInGc : ∀ {x}, .gc x ∈ E → h.gcFrame = h.top → h.gcMin ≤ h.gen x → h.gen x ≠ h.gcGen →
      h.gen x < h.gcMax → InGc h.lists x := by
    intro x hx he h1 h2 h3
    by_contra hc
    have ha := (hE _ hx).1
    have ho := young_own ha (gG he h1)
    rw [← he] at ho
    rcases inv.rng ha ho hc with h4 | h4 | h4
    · omega
    · exact h2 h4
    · omega
  have inGcRange : ∀ {x}, K x → InGc h.lists x → h.gcMin ≤ h.gen x ∧ h.gen x ≠ h.gcGen ∧
      h.gen x < h.gcMax := fun hk hx => ⟨(inv.kGen hk hx).1, (inv.kGen hk hx).2.2, (inv.kGen hk hx).2.1⟩
  -- membership in the collector's lists
  have gcOwn : ∀ {x}, InGc h.lists x → Own h.lists h.gcFrame x h.gcFrame :=
    fun hx => .inr (.inr (.inr ⟨rfl, hx⟩))
  have keptGc : ∀ {x}, .gc x ∈ E → InGc h.lists x → h.minGen h.top ≤ h.gen x →
      h.gcFrame = h.top ∧ h.gcMin ≤ h.gen x ∧ h.gen x ≠ h.gcGen ∧ h.gen x < h.gcMax := by
    intro x hx hg hy
    have ha := (hE _ hx).1
    exact ⟨Own.unique inv.pl (gcOwn hg) (young_own ha hy), inGcRange (inv.accK ha) hg⟩
  have mMarkedFrom : ∀ {x}, x ∈ h.lists .gcMarked → x ∈ ls .gcMarked := by
    intro x hx
    rw [hm]
    split
    · rfl
    · rename_i h1
      split
      · rename_i h2
        exact absurd ⟨h2.1, keptGc h2.1 (.inl hx) h2.2⟩ h1
      · exact .inl ⟨hx, by simp, by simp, by simp⟩
  have mMarkedTo : ∀ {x}, x ∈ ls .gcMarked → x ∈ h.lists .gcMarked ∨
      (.gc x ∈ E ∧ x ∈ h.lists .gcUnmarked) := by
    intro x hx
    rw [hm] at hx
    split at hx
    · rename_i h1
      rcases rangeInGc h1.1 h1.2.1 h1.2.2.1 h1.2.2.2.1 h1.2.2.2.2 with h2 | h2
      · exact .inl h2
      · exact .inr ⟨h1.1, h2⟩
    · split at hx
      · cases hx
      · rcases hx with hx | hx
        · exact .inl hx.1
        · cases hx.1
  have mUnFrom : ∀ {x}, x ∈ h.lists .gcUnmarked → x ∈ ls .gcUnmarked ∨ x ∈ ls .gcMarked := by
    intro x hx
    rw [hm, hm]
    split
    · exact .inr rfl
    · rename_i h1
      split
      · rename_i h2
        exact absurd ⟨h2.1, keptGc h2.1 (.inr hx) h2.2⟩ h1
      · exact .inl (.inl ⟨hx, by simp, by simp, by simp⟩)
  have mUnTo : ∀ {x}, x ∈ ls .gcUnmarked → x ∈ h.lists .gcUnmarked := by
    intro x hx
    rw [hm] at hx
    split at hx
    · cases hx
    · split at hx
      · cases hx
      · rcases hx with hx | hx
        · exact hx.1
        · cases hx.1
  have mFreeTo : ∀ {x}, x ∈ ls .gcFree → x ∈ h.lists .gcFree := by
    intro x hx
    rw [hm] at hx
    split at hx
    · cases hx
    · split at hx
      · cases hx
      · rcases hx with hx | hx
        · exact hx.1
        · cases hx.1
  have inGc : ∀ {x}, InGc ls x ↔ InGc h.lists x := by
    intro x
    constructor
    · rintro (h1 | h1)
      · rcases mMarkedTo h1 with h2 | h2
        · exact .inl h2
        · exact .inr h2.2
      · exact .inr (mUnTo h1)
    · rintro (h1 | h1)
      · exact .inl (mMarkedFrom h1)
      · exact (mUnFrom h1).symm
  -- placement
  have anyFrom : ∀ {x l}, x ∈ h.lists l → ∃ l', x ∈ ls l' := by
    intro x l hx
    by_cases h1 : .gc x ∈ E ∧ h.gcFrame = h.top ∧ h.gcMin ≤ h.gen x ∧ h.gen x ≠ h.gcGen ∧ h.gen x < h.gcMax
    · exact ⟨.gcMarked, by rw [hm, if_pos h1]⟩
    by_cases h2 : .gc x ∈ E ∧ h.minGen h.top ≤ h.gen x
    · exact ⟨.marked c, by rw [hm, if_neg h1, if_pos h2]⟩
    by_cases h3 : l = .alloced h.top ∨ l = .marked h.top ∨ l = .unmarked h.top
    · refine ⟨.unmarked c, ?_⟩
      rw [hm, if_neg h1, if_neg h2]
      rcases h3 with rfl | rfl | rfl
      · exact .inr ⟨rfl, .inl hx⟩
      · exact .inr ⟨rfl, .inr (.inl hx)⟩
      · exact .inr ⟨rfl, .inr (.inr hx)⟩
    · refine ⟨l, ?_⟩
      rw [hm, if_neg h1, if_neg h2]
      simp only [not_or] at h3
      exact .inl ⟨hx, h3.1, h3.2.1, h3.2.2⟩
  have anyTo : ∀ {x l}, x ∈ ls l → ∃ l', x ∈ h.lists l' := by
    intro x l hx
    rw [hm] at hx
    split at hx
    · rename_i h1
      exact inv.pl.placed x (inv.accLive (hE _ h1.1).1)
    · split at hx
      · rename_i h1
        exact inv.pl.placed x (inv.accLive (hE _ h1.1).1)
      · rcases hx with hx | ⟨_, hx | hx | hx⟩
        · exact ⟨_, hx.1⟩
        · exact ⟨_, hx⟩
        · exact ⟨_, hx⟩
        · exact ⟨_, hx⟩
  have pl : Placed (settled h c ls gf mg gfr int sv nx) := {
    nodup := hnd
    disj := by
      intro l l' x hx hx'
      have hx := (hm x l).mp hx
      have hx' := (hm x l').mp hx'
      split at hx
      · rename_i h1
        rw [if_pos h1] at hx'
        rw [hx, hx']
      · rename_i h1
        rw [if_neg h1] at hx'
        split at hx
        · rename_i h2
          rw [if_pos h2] at hx'
          rw [hx, hx']
        · rename_i h2
          rw [if_neg h2] at hx'
          rcases hx with ⟨a1, a2, a3, a4⟩ | ⟨a1, a2⟩ <;> rcases hx' with ⟨b1, b2, b3, b4⟩ | ⟨b1, b2⟩
          · exact inv.pl.disj a1 b1
          · rcases b2 with b2 | b2 | b2
            · exact absurd (inv.pl.disj a1 b2) a2
            · exact absurd (inv.pl.disj a1 b2) a3
            · exact absurd (inv.pl.disj a1 b2) a4
          · rcases a2 with a2 | a2 | a2
            · exact absurd (inv.pl.disj b1 a2) b2
            · exact absurd (inv.pl.disj b1 a2) b3
            · exact absurd (inv.pl.disj b1 a2) b4
          · rw [a1, b1]
    alive := by
      intro l x hx
      obtain ⟨l', hx⟩ := anyTo hx
      exact inv.pl.alive hx
    placed := by
      intro x hx
      obtain ⟨l, hx⟩ := inv.pl.placed x hx
      exact anyFrom hx
    fresh := inv.pl.fresh
    book := inv.pl.book
    above := by
      intro d hd
      have hd : c < d := hd
      refine ⟨?_, ?_, ?_⟩
      all_goals
        refine List.eq_nil_iff_forall_not_mem.mpr fun x hx => ?_
        have hx := (hm x _).mp hx
        split at hx
        · cases hx
        · split at hx
          · simp at hx; try omega
          · rcases hx with ⟨h1, h2, h3, h4⟩ | ⟨h1, h2⟩
            · by_cases hdt : d = h.top
              · subst hdt; simp at h2 h3 h4
              · have := inv.pl.above d (by omega)
                simp [this.1, this.2.1, this.2.2] at h1
            · simp at h1; try omega }
  have ownFrom : ∀ {x e}, Own h.lists h.gcFrame x e → (.gc x ∈ E → Acc h R (.gc x)) →
      Own ls gfr x (if e = h.top then c else e) := by
    intro x e ho hacc
    by_cases h1 : .gc x ∈ E ∧ h.gcFrame = h.top ∧ h.gcMin ≤ h.gen x ∧ h.gen x ≠ h.gcGen ∧ h.gen x < h.gcMax
    · have : e = h.top := Own.unique inv.pl ho (young_own (hacc h1.1) (gG h1.2.1 h1.2.2.1))
      rw [if_pos this]
      refine .inr (.inr (.inr ⟨by rw [hgfr, if_pos h1.2.1], .inl ?_⟩))
      rw [hm, if_pos h1]
    by_cases h2 : .gc x ∈ E ∧ h.minGen h.top ≤ h.gen x
    · have : e = h.top := Own.unique inv.pl ho (young_own (hacc h2.1) h2.2)
      rw [if_pos this]
      refine .inr (.inl ?_)
      rw [hm, if_neg h1, if_pos h2]
    have hx : ∀ l, x ∈ ls l ↔ _ := fun l => (hm x l).trans (by rw [if_neg h1, if_neg h2])
    by_cases het : e = h.top
    · rw [if_pos het]
      subst het
      rcases ho with h3 | h3 | h3 | ⟨h0, h3⟩
      · exact .inr (.inr (.inl ((hx _).mpr (.inr ⟨rfl, .inl h3⟩))))
      · exact .inr (.inr (.inl ((hx _).mpr (.inr ⟨rfl, .inr (.inl h3)⟩))))
      · exact .inr (.inr (.inl ((hx _).mpr (.inr ⟨rfl, .inr (.inr h3)⟩))))
      · exact .inr (.inr (.inr ⟨by rw [hgfr, if_pos h0.symm], inGc.mpr h3⟩))
    · rw [if_neg het]
      rcases ho with h3 | h3 | h3 | ⟨h0, h3⟩
      · exact .inl ((hx _).mpr (.inl ⟨h3, by simpa using het, by simp, by simp⟩))
      · exact .inr (.inl ((hx _).mpr (.inl ⟨h3, by simp, by simpa using het, by simp⟩)))
      · exact .inr (.inr (.inl ((hx _).mpr (.inl ⟨h3, by simp, by simp, by simpa using het⟩))))
      · exact .inr (.inr (.inr ⟨by rw [hgfr, if_neg (by omega)]; exact h0, inGc.mpr h3⟩))
  have ownTo : ∀ {x d}, K x → Own ls gfr x d →
      ∃ e, Own h.lists h.gcFrame x e ∧ e ≤ h.top ∧ d = if e = h.top then c else e := by
    intro x d hk ho
    obtain ⟨e, he, ho'⟩ := inv.hasOwn hk
    exact ⟨e, ho', he, Own.unique pl ho (ownFrom ho' fun hx => (hE _ hx).1)⟩
  have vownTo : ∀ {v d}, Acc' h.fields h.sfields h.sgc (Rt c R') v → VOwn ls gfr h.sframe v d →
      ∃ e, VOwn h.lists h.gcFrame h.sframe v e ∧ e ≤ h.top ∧ d = if e = h.top then c else e := by
    intro v d ha ho
    cases v with
    | gc x => exact ownTo (inv.accK (acc ha)) ho
    | stk s =>
      have ho : h.sframe s = d := ho
      refine ⟨d, ho, ?_, ?_⟩
      · rw [← ho]
        exact (inv.stack (inv.accStk (acc ha))).1
      · rcases (keep ha).2 with h1 | ⟨x, h1, _⟩
        · rw [if_neg]
          have := h1 _ ho
          omega
        · cases h1
    | imm => exact ho.elim
    | uninit => exact ho.elim
  -- new accessible objects of the popped frame
  have topAcc : ∀ {x}, Acc' h.fields h.sfields h.sgc (Rt c R') (.gc x) → Own h.lists h.gcFrame x h.top →
      Path h.fields (fun y => .gc y ∈ E) (fun y => Own h.lists h.gcFrame y h.top) x := by
    intro x ha ho
    rcases (keep ha).2 with h1 | ⟨y, h1, _, h2⟩
    · exact absurd (h1 _ ho) (by omega)
    · cases h1; exact h2
  have firstE : ∀ {x}, Acc h R (.gc x) → Own h.lists h.gcFrame x h.top →
      Path h.fields (fun y => .gc y ∈ E) (fun y => Own h.lists h.gcFrame y h.top) x →
      ∃ y, .gc y ∈ E ∧ Own h.lists h.gcFrame y h.top := by
    intro x ha ho hp
    have hd : ∀ {z}, Path h.fields (fun y => .gc y ∈ E) (fun y => Own h.lists h.gcFrame y h.top) z →
        Acc h R (.gc z) := by
      intro z hz
      induction hz with
      | base h => exact (hE _ h).1
      | step _ hb _ ih => exact .step ih ⟨hb, by simp⟩
    clear ha
    induction hp with
    | base h => exact ⟨_, h, ho⟩
    | @step a b hpa hb _ ih =>
      refine ih ?_
      have haa := hd hpa
      obtain ⟨e, he, hoa⟩ := inv.hasOwn (inv.accK haa)
      have := inv.edgeDepth haa (v := .gc a) (w := .gc b) ⟨hb, by simp⟩ hoa ho
      have : e = h.top := by omega
      exact this ▸ hoa
  have mgTop : ∀ {x}, Acc' h.fields h.sfields h.sgc (Rt c R') (.gc x) → Own h.lists h.gcFrame x h.top →
      h.maxGen h.top ≤ mg c := by
    intro x ha ho
    rcases hM with h1 | ⟨_, _, h1⟩
    · exact h1
    · obtain ⟨y, h2, h3⟩ := firstE (acc ha) ho (topAcc ha ho)
      exact absurd h3 (h1 y h2)
  have gens := inv.gens1
  have minc : h.minGen c ≤ h.minGen h.top := by
    by_cases hc : c = h.top
    · rw [hc]; exact Nat.le_refl _
    · have h1 := inv.chain (d := c) (e := h.top) (by omega) (Nat.le_refl _)
      have := gens c hct
      omega
  have newGen : ∀ {x d}, Acc' h.fields h.sfields h.sgc (Rt c R') (.gc x) → Own ls gfr x d →
      h.minGen d ≤ h.gen x ∧ h.gen x < mg d := by
    intro x d ha ho
    obtain ⟨e, h1, h2, h3⟩ := ownTo (inv.accK (acc ha)) ho
    have hg := inv.accGen (acc ha) h1
    by_cases het : e = h.top
    · rw [if_pos het] at h3
      subst het h3
      have := mgTop ha h1
      omega
    · rw [if_neg het] at h3
      subst h3
      by_cases hdc : d = c
      · subst hdc; omega
      · have := hlow d (by omega)
        omega
  have nextc : nx ≠ none := by
    rw [hnx]
    split
    · simp
    · rename_i h1
      exact fun e => h1 (.inl e)
  have stale' : NotStale (settled h c ls gf mg gfr int sv nx) ∨ Stale (settled h c ls gf mg gfr int sv nx) R' := by
    rcases inv.stale with ⟨h1, h2⟩ | ⟨h1, h2, h3⟩
    · by_cases hft : h.gcFrame = h.top
      · rw [if_pos hft] at hgfr
        have hmin := minT hft
        rcases hM with h4 | ⟨h4, h5, h6⟩
        · refine .inl ⟨?_, fun _ => ?_⟩
          · show h.gcMax ≤ mg gfr
            rw [hgfr]
            rw [hft] at h1
            omega
          · show gf gfr < h.gcMin ∨ h.gcMax ≤ gf gfr
            rw [hgfr]
            by_cases hcc : c = h.top
            · right
              rw [hc3 hcc, hcc, ← hft]
              exact h1
            · left
              rw [hc2 (by omega)]
              have h7 := inv.chain (d := c) (e := h.top) (by omega) (Nat.le_refl _)
              have := gens c hct
              omega
        · refine .inr ⟨?_, ?_, ?_⟩
          · show int = true
            rw [hint]; simp [hft]
          · refine List.eq_nil_iff_forall_not_mem.mpr fun x hx => ?_
            rcases mMarkedTo hx with h7 | ⟨h7, h8⟩
            · rw [h5 hft] at h7; simp at h7
            · have := gcOwn (x := x) (.inr h8)
              rw [hft] at this
              exact h6 x h7 (.inr (.inr (.inr ⟨hft.symm, .inr h8⟩)))
          · intro x ha
            have ha : Acc' h.fields h.sfields h.sgc (Rt c R') (.gc x) := ha
            show h.gen x < h.gcMin
            obtain ⟨e, he, ho⟩ := inv.hasOwn (inv.accK (acc ha))
            by_cases het : e = h.top
            · subst het
              obtain ⟨y, h7, h8⟩ := firstE (acc ha) ho (topAcc ha ho)
              exact absurd h8 (h6 y h7)
            · have h7 := inv.accGen (acc ha) ho
              have h8 := inv.chain (d := e) (e := h.top) (by omega) (Nat.le_refl _)
              omega
      · rw [if_neg hft] at hgfr
        have hlt : h.gcFrame ≤ c := by
          have := inv.frameTop
          omega
        refine .inl ⟨?_, fun hi => ?_⟩
        · show h.gcMax ≤ mg gfr
          rw [hgfr]
          by_cases hcc : h.gcFrame = c
          · rw [hcc] at h1 ⊢; omega
          · rw [(hlow _ (by omega)).2]; exact h1
        · have hi : h.interrupted = true := by
            have hi : int = true := hi
            rw [hint] at hi; simpa [hft] using hi
          show gf gfr < h.gcMin ∨ h.gcMax ≤ gf gfr
          rw [hgfr]
          by_cases hcc : h.gcFrame = c
          · rw [hcc, hc2 (by have := inv.frameTop; omega), ← hcc]; exact h2 hi
          · rw [(hlow _ (by omega)).1]; exact h2 hi
    · refine .inr ⟨?_, ?_, fun x hx => h3 x (acc hx)⟩
      · show int = true
        rw [hint]; simp [h1]
      · refine List.eq_nil_iff_forall_not_mem.mpr fun x hx => ?_
        have hx := (hm x _).mp hx
        split at hx
        · rename_i h4
          have := h3 x (hE _ h4.1).1
          omega
        · split at hx
          · cases hx
          · rcases hx with hx | hx
            · rw [h2] at hx; simp at hx
            · cases hx.1
  exact {
    pl := pl
    gens1 := by
      intro d hd
      have hd : d ≤ c := hd
      show h.minGen d ≤ gf d ∧ gf d < mg d
      by_cases hdc : d = c
      · subst hdc; exact ⟨hc1.1, hc1.2.1⟩
      · rw [(hlow d (by omega)).1, (hlow d (by omega)).2]
        exact gens d (by omega)
    gens2 := by
      intro d hd
      have hd : d < c := hd
      show mg d ≤ h.minGen (d + 1)
      rw [(hlow d hd).2]
      exact inv.gens2 d (by omega)
    allocGen := by
      intro d x hx
      have hx := (hm x _).mp hx
      show h.gen x = gf d
      split at hx
      · cases hx
      · split at hx
        · cases hx
        · rcases hx with ⟨h1, h2, _⟩ | ⟨h1, _⟩
          · have hdt : d ≤ h.top := inv.ownTop (.inl h1)
            have hdn : d ≠ h.top := by simpa using h2
            have := inv.allocGen h1
            by_cases hdc : d = c
            · subst hdc; rw [hc2 (by omega)]; exact this
            · rw [(hlow d (by omega)).1]; exact this
          · cases h1
    frameTop := by
      show gfr ≤ c
      have := inv.frameTop
      rw [hgfr]; split <;> omega
    next := by
      intro n hn
      have hn : nx = some n := hn
      show gfr ≤ n ∧ n ≤ c
      have := inv.frameTop
      rw [hnx] at hn
      split at hn
      · cases hn
        rw [hgfr]; split <;> omega
      · rename_i h1
        have h2 := inv.next n hn
        have h3 : n ≠ h.top := fun e => h1 (.inr (e ▸ hn))
        rw [hgfr]; split <;> omega
    nonint := by
      intro hi
      have hi : int = false := hi
      rw [hint] at hi
      simp at hi
      obtain ⟨h1, h2⟩ := inv.nonint hi.1
      refine ⟨?_, ?_⟩
      · refine List.eq_nil_iff_forall_not_mem.mpr fun x hx => ?_
        have hx := (hsv x).mp hx
        rw [if_neg hi.2, h1] at hx
        simp at hx
      · show h.gcGen = gf gfr
        rw [if_neg hi.2] at hgfr
        have := inv.frameTop
        rw [hgfr, h2]
        by_cases hcc : h.gcFrame = c
        · rw [hcc, hc2 (by omega)]
        · rw [(hlow _ (by omega)).1]
    isint := fun _ => nextc
    gcg := by
      refine ⟨inv.gcg.1, inv.gcg.2.1, ?_⟩
      show h.minGen gfr ≤ h.gcMin
      rw [hgfr]
      split
      · rename_i hft
        have := minT hft
        omega
      · exact inv.gcg.2.2
    stale := stale'
    accK := fun ha => inv.accK (acc ha)
    accUninit := fun ha => inv.accUninit (acc ha)
    accStk := by
      intro s ha
      have ha : Acc' h.fields h.sfields h.sgc (Rt c R') (.stk s) := ha
      have h1 := inv.accStk (acc ha)
      rcases (keep ha).2 with h2 | ⟨x, h2, _⟩
      · have := h2 _ rfl
        show (h.salive s && h.sframe s != h.top) = true
        simp only [Bool.and_eq_true, bne_iff_ne]
        exact ⟨h1, by omega⟩
      · cases h2
    kClosed := inv.kClosed
    kLive := fun hk => ⟨(inv.kLive hk).1, fun hf => (inv.kLive hk).2 (mFreeTo hf)⟩
    kMarked := by
      intro x hx
      rcases mMarkedTo hx with h1 | h1
      · exact inv.kMarked h1
      · exact inv.accK (hE _ h1.1).1
    kWhite := by
      intro x hk hx
      refine Path.mono ?_ ?_ (fun _ _ => rfl) (inv.kWhite hk (mUnTo hx))
      · intro y hy
        exact .base (mMarkedFrom hy)
      · intro y hy
        rcases mUnFrom hy with h1 | h1
        · exact .inr h1
        · exact .inl (.base h1)
    kGen := fun hk hx => inv.kGen hk (inGc.mp hx)
    kEdge := by
      intro x y hk hx hy
      have := inv.kEdge hk (inGc.mp hx) hy
      rwa [← inGc] at this
    accGen := fun ha ho => newGen ha ho
    accNe := by
      intro x d ha ho
      have ha : Acc' h.fields h.sfields h.sgc (Rt c R') (.gc x) := ha
      have ho' : Own ls gfr x d := ho.elim (fun h => .inr (.inl h)) (fun h => .inr (.inr (.inl h)))
      show h.gen x ≠ gf d
      obtain ⟨e, h1, h2, h3⟩ := ownTo (inv.accK (acc ha)) ho'
      have hg := inv.accGen (acc ha) h1
      by_cases het : e = h.top
      · rw [if_pos het] at h3
        subst het
        rw [h3]
        by_cases hcc : c = h.top
        · rw [hc3 hcc, hcc]; omega
        · rw [hc2 (by omega)]
          have h7 := inv.chain (d := c) (e := h.top) (by omega) (Nat.le_refl _)
          have := gens c hct
          omega
      · rw [if_neg het] at h3
        subst h3
        have hgf : gf d = h.genF d := by
          by_cases hdc : d = c
          · subst hdc; exact hc2 (by omega)
          · exact (hlow d (by omega)).1
        rw [hgf]
        refine inv.accNe (acc ha) ?_
        have hny : ¬ (.gc x ∈ E ∧ h.minGen h.top ≤ h.gen x) := fun hc =>
          het (Own.unique inv.pl h1 (young_own (acc ha) hc.2))
        have hng : ¬ (.gc x ∈ E ∧ h.gcFrame = h.top ∧ h.gcMin ≤ h.gen x ∧ h.gen x ≠ h.gcGen ∧ h.gen x < h.gcMax) :=
          fun hc => hny ⟨hc.1, gG hc.2.1 hc.2.2.1⟩
        have notT : ∀ {l}, (l = .alloced h.top ∨ l = .marked h.top ∨ l = .unmarked h.top) → x ∉ h.lists l := by
          rintro l (rfl | rfl | rfl) hx
          · exact het (Own.unique inv.pl h1 (.inl hx))
          · exact het (Own.unique inv.pl h1 (.inr (.inl hx)))
          · exact het (Own.unique inv.pl h1 (.inr (.inr (.inl hx))))
        rcases ho with ho | ho
        · have ho := (hm x _).mp ho
          rw [if_neg hng, if_neg hny] at ho
          rcases ho with ho | ho
          · exact .inl ho.1
          · cases ho.1
        · have ho := (hm x _).mp ho
          rw [if_neg hng, if_neg hny] at ho
          rcases ho with ho | ⟨_, ho | ho | ho⟩
          · exact .inr ho.1
          · exact absurd ho (notT (.inl rfl))
          · exact absurd ho (notT (.inr (.inl rfl)))
          · exact absurd ho (notT (.inr (.inr rfl)))
    rng := by
      intro x ha ho hg
      have ha : Acc' h.fields h.sfields h.sgc (Rt c R') (.gc x) := ha
      have ho : Own ls gfr x gfr := ho
      have hg : ¬ InGc h.lists x := fun hc => hg (inGc.mpr hc)
      show h.gen x < h.gcMin ∨ h.gen x = h.gcGen ∨ h.gcMax ≤ h.gen x
      obtain ⟨e, h1, h2, h3⟩ := ownTo (inv.accK (acc ha)) ho
      have hag := inv.accGen (acc ha) h1
      by_cases hft : h.gcFrame = h.top
      · rw [if_pos hft] at hgfr
        have hmin := minT hft
        by_cases het : e = h.top
        · subst het
          rw [← hft] at h1
          exact inv.rng (acc ha) h1 hg
        · left
          have h7 := inv.chain (d := e) (e := h.top) (by omega) (Nat.le_refl _)
          omega
      · rw [if_neg hft] at hgfr
        by_cases het : e = h.top
        · rw [if_pos het] at h3
          have hcf : h.gcFrame = c := by omega
          subst het
          have h7 := inv.chain (d := c) (e := h.top) (by omega) (Nat.le_refl _)
          rcases inv.stale with ⟨h8, _⟩ | ⟨_, _, h8⟩
          · right; right
            rw [hcf] at h8
            omega
          · exact .inl (h8 x (acc ha))
        · rw [if_neg het] at h3
          have : e = h.gcFrame := by omega
          exact inv.rng (acc ha) (this ▸ h1) hg
    edgeDepth := by
      intro v w d e ha he h1 h2
      have ha : Acc' h.fields h.sfields h.sgc (Rt c R') v := ha
      obtain ⟨d', a1, a2, a3⟩ := vownTo ha h1
      obtain ⟨e', b1, b2, b3⟩ := vownTo (.step ha he) h2
      have := inv.edgeDepth (acc ha) he a1 b1
      split at a3 <;> split at b3 <;> omega
    rootDepth := by
      intro v d e hd hv h1
      have hd : d ≤ c := hd
      have ha : Acc' h.fields h.sfields h.sgc (Rt c R') v := .root ⟨d, hd, hv⟩
      obtain ⟨e', b1, b2, b3⟩ := vownTo ha h1
      rcases (hR d v hd).mp hv with h2 | h2
      · have := inv.rootDepth (by omega) h2.1 b1
        split at b3 <;> omega
      · split at b3 <;> omega
    markedRoot := by
      intro x d hx
      have hx := (hm x _).mp hx
      show .gc x ∈ R' d
      split at hx
      · cases hx
      · split at hx
        · rename_i h1 h2
          cases hx
          exact (hR c _ (Nat.le_refl _)).mpr (.inr ⟨rfl, h2.1⟩)
        · rcases hx with ⟨h1, _, h2, _⟩ | ⟨h1, _⟩
          · have hdt : d ≤ h.top := inv.ownTop (.inr (.inl h1))
            have hdn : d ≠ h.top := by simpa using h2
            exact (hR d _ (by omega)).mpr (.inl ⟨inv.markedRoot h1, by omega⟩)
          · cases h1
    saveRoot := by
      intro x hx
      have hx := (hsv x).mp hx
      show .gc x ∈ R' gfr
      by_cases hft : h.gcFrame = h.top
      · rw [if_pos hft] at hx hgfr
        rw [hgfr]
        exact (hR c _ (Nat.le_refl _)).mpr (.inr ⟨rfl, hx.1⟩)
      · rw [if_neg hft] at hx hgfr
        have := inv.frameTop
        rw [hgfr]
        exact (hR _ _ (by omega)).mpr (.inl ⟨inv.saveRoot hx, by omega⟩)
    saveAt := by
      intro x hx
      have hx := (hsv x).mp hx
      show x ∈ ls .gcMarked ∨ x ∈ ls (.unmarked gfr)
      by_cases hft : h.gcFrame = h.top
      · rw [if_pos hft] at hx
        left
        rw [hm, if_pos ⟨hx.1, hft, hx.2⟩]
      · rw [if_neg hft] at hx hgfr
        rcases inv.saveAt hx with h1 | h1
        · exact .inl (mMarkedFrom h1)
        · right
          have hox : Own h.lists h.gcFrame x h.gcFrame := .inr (.inr (.inl h1))
          have hny : ¬ (.gc x ∈ E ∧ h.minGen h.top ≤ h.gen x) := fun hc =>
            hft (Own.unique inv.pl hox (young_own (hE _ hc.1).1 hc.2))
          have hng : ¬ (.gc x ∈ E ∧ h.gcFrame = h.top ∧ h.gcMin ≤ h.gen x ∧ h.gen x ≠ h.gcGen ∧ h.gen x < h.gcMax) :=
            fun hc => hft hc.2.1
          rw [hm, if_neg hng, if_neg hny, hgfr]
          exact .inl ⟨h1, by simp, by simp, by simpa using hft⟩
    white := by
      intro d x hd ha hw
      have hd : d ≤ c := hd
      have ha : Acc' h.fields h.sfields h.sgc (Rt c R') (.gc x) := ha
      have hw : Wh ls int gfr d x := hw
      show Path h.fields (Gr ls int gfr sv d) (Wh ls int gfr d) x
      have how : Own ls gfr x d := by
        rcases hw with h1 | ⟨_, h1, h2⟩
        · exact .inr (.inr (.inl h1))
        · exact .inr (.inr (.inr ⟨h1, h2⟩))
      obtain ⟨e, h1, h2, h3⟩ := ownTo (inv.accK (acc ha)) how
      by_cases het : e = h.top
      · -- belonged to the top frame
        subst het
        rw [if_pos rfl] at h3
        subst h3
        -- objects on the path all belonged to the top frame and are accessible
        have main : ∀ {z}, Path h.fields (fun y => .gc y ∈ E) (fun y => Own h.lists h.gcFrame y h.top) z →
            Own h.lists h.gcFrame z h.top → Path h.fields (Gr ls int gfr sv d) (Wh ls int gfr d) z ∧
              Acc h R (.gc z) := by
          intro z hz
          have hd : ∀ {z}, Path h.fields (fun y => .gc y ∈ E) (fun y => Own h.lists h.gcFrame y h.top) z →
              Acc h R (.gc z) := by
            intro z hz
            induction hz with
            | base h => exact (hE _ h).1
            | step _ hb _ ih => exact .step ih ⟨hb, by simp⟩
          have base : ∀ {y}, .gc y ∈ E → Own h.lists h.gcFrame y h.top → Gr ls int gfr sv d y := by
            intro y hy ho
            have hyg := own_young (hE _ hy).1 ho
            by_cases hgy : h.gcFrame = h.top ∧ h.gcMin ≤ h.gen y ∧ h.gen y ≠ h.gcGen ∧ h.gen y < h.gcMax
            · refine .inr ⟨by rw [hint]; simp [hgy.1], by rw [hgfr, if_pos hgy.1], ?_⟩
              rw [hsv, if_pos hgy.1]
              exact ⟨hy, hgy.2⟩
            · refine .inl ?_
              rw [hm, if_neg (fun hc => hgy hc.2), if_pos ⟨hy, hyg⟩]
          induction hz with
          | base hb => exact fun ho => ⟨.base (base hb ho), (hE _ hb).1⟩
          | @step a b hpa hb hob ih =>
            intro ho
            have haa := hd hpa
            have hoa : Own h.lists h.gcFrame a h.top := by
              obtain ⟨e, he, hoa⟩ := inv.hasOwn (inv.accK haa)
              have := inv.edgeDepth haa (v := .gc a) (w := .gc b) ⟨hb, by simp⟩ hoa ho
              have : e = h.top := by omega
              exact this ▸ hoa
            refine ⟨?_, .step haa ⟨hb, by simp⟩⟩
            by_cases hbE : .gc b ∈ E
            · exact .base (base hbE ho)
            · refine .step (ih hoa).1 hb ?_
              have hx : ∀ l, b ∈ ls l ↔ _ := fun l => (hm b l).trans
                (by rw [if_neg (fun hc => hbE hc.1), if_neg (fun hc => hbE hc.1)])
              rcases ho with h3 | h3 | h3 | ⟨h0, h3⟩
              · exact .inl ((hx _).mpr (.inr ⟨rfl, .inl h3⟩))
              · exact .inl ((hx _).mpr (.inr ⟨rfl, .inr (.inl h3)⟩))
              · exact .inl ((hx _).mpr (.inr ⟨rfl, .inr (.inr h3)⟩))
              · exact .inr ⟨by rw [hint]; simp [← h0], by rw [hgfr, if_pos h0.symm], inGc.mpr h3⟩
        exact (main (topAcc ha h1) h1).1
      · rw [if_neg het] at h3
        subst h3
        have hde : d < h.top := by omega
        have hn : ∀ {y}, (y ∈ h.lists (.marked d) ∨ y ∈ h.lists (.unmarked d) ∨ (d = h.gcFrame ∧ InGc h.lists y)) →
            Acc h R (.gc y) ∨ .gc y ∉ E → ∀ l, y ∈ ls l ↔ (y ∈ h.lists l ∧ l ≠ .alloced h.top ∧ l ≠ .marked h.top ∧ l ≠ .unmarked h.top) ∨
        (l = .unmarked c ∧ (y ∈ h.lists (.alloced h.top) ∨ y ∈ h.lists (.marked h.top) ∨
          y ∈ h.lists (.unmarked h.top))) := by
          intro y hy hay l
          have hoy : Own h.lists h.gcFrame y d := .inr hy
          have hny : ¬ (.gc y ∈ E ∧ h.minGen h.top ≤ h.gen y) := fun hc =>
            het (Own.unique inv.pl hoy (young_own (hE _ hc.1).1 hc.2))
          have hng : ¬ (.gc y ∈ E ∧ h.gcFrame = h.top ∧ h.gcMin ≤ h.gen y ∧ h.gen y ≠ h.gcGen ∧ h.gen y < h.gcMax) :=
            fun hc => hny ⟨hc.1, gG hc.2.1 hc.2.2.1⟩
          rw [hm, if_neg hng, if_neg hny]
        have hn' : ∀ {y}, (y ∈ h.lists (.marked d) ∨ y ∈ h.lists (.unmarked d) ∨ (d = h.gcFrame ∧ InGc h.lists y)) →
            ∀ l, y ∈ ls l ↔ (y ∈ h.lists l ∧ l ≠ .alloced h.top ∧ l ≠ .marked h.top ∧ l ≠ .unmarked h.top) ∨
        (l = .unmarked c ∧ (y ∈ h.lists (.alloced h.top) ∨ y ∈ h.lists (.marked h.top) ∨
          y ∈ h.lists (.unmarked h.top))) := by
          intro y hy
          by_cases hyE : .gc y ∈ E
          · exact hn hy (.inl (hE _ hyE).1)
          · exact hn hy (.inr hyE)
        have hold : Wh h.lists h.interrupted h.gcFrame d x := by
          rcases h1 with h4 | h4 | h4 | ⟨h0, h4⟩
          · exfalso
            have : x ∈ ls (.alloced d) := by
              have hny : ¬ (.gc x ∈ E ∧ h.minGen h.top ≤ h.gen x) := fun hc =>
                het (Own.unique inv.pl (.inl h4) (young_own (hE _ hc.1).1 hc.2))
              have hng : ¬ (.gc x ∈ E ∧ h.gcFrame = h.top ∧ h.gcMin ≤ h.gen x ∧ h.gen x ≠ h.gcGen ∧ h.gen x < h.gcMax) :=
                fun hc => hny ⟨hc.1, gG hc.2.1 hc.2.2.1⟩
              rw [hm, if_neg hng, if_neg hny]
              exact .inl ⟨h4, by simpa using het, by simp, by simp⟩
            rcases hw with hw | ⟨_, _, hw | hw⟩
            · have := pl.disj this hw; cases this
            · have := pl.disj this hw; cases this
            · have := pl.disj this hw; cases this
          · exfalso
            have : x ∈ ls (.marked d) := (hn' (.inl h4) _).mpr
              (.inl ⟨h4, by simp, by simpa using het, by simp⟩)
            rcases hw with hw | ⟨_, _, hw | hw⟩
            · have := pl.disj this hw; cases this
            · have := pl.disj this hw; cases this
            · have := pl.disj this hw; cases this
          · exact .inl h4
          · refine .inr ⟨?_, h0, h4⟩
            rcases hw with hw | ⟨hi, hdg, _⟩
            · have : InGc ls x := inGc.mpr h4
              rcases this with h5 | h5
              · have := pl.disj h5 hw; cases this
              · have := pl.disj h5 hw; cases this
            · rw [hint] at hi
              simp only [Bool.or_eq_true, decide_eq_true_eq] at hi
              exact hi.resolve_right (by omega)
        refine Path.mono ?_ ?_ (fun _ _ => rfl) (inv.white (by omega) (acc ha) hold)
        · intro y hy
          refine .base ?_
          rcases hy with hy | ⟨h4, h5, h6⟩
          · exact .inl ((hn' (.inl hy) _).mpr (.inl ⟨hy, by simp, by simpa using het, by simp⟩))
          · have hft : h.gcFrame ≠ h.top := by omega
            refine .inr ⟨by rw [hint]; simp [h4], by rw [hgfr, if_neg hft]; exact h5, ?_⟩
            rw [hsv, if_neg hft]
            exact h6
        · intro y hy
          refine .inr ?_
          rcases hy with hy | ⟨h4, h5, h6⟩
          · exact .inl ((hn' (.inr (.inl hy)) _).mpr (.inl ⟨hy, by simp, by simp, by simpa using het⟩))
          · have hft : h.gcFrame ≠ h.top := by omega
            exact .inr ⟨by rw [hint]; simp [h4], by rw [hgfr, if_neg hft]; exact h5, inGc.mpr h6⟩
    clean := inv.clean
    ucAlloc := fun hx => by cases hx
    ucStk := inv.ucStk
    stack := by
      intro s hs
      have hs : (h.salive s && h.sframe s != h.top) = true := hs
      simp only [Bool.and_eq_true, bne_iff_ne] at hs
      obtain ⟨h1, h2, h3⟩ := inv.stack hs.1
      refine ⟨?_, ?_, h3⟩
      · show h.sframe s ≤ c
        omega
      · show .stk s ∈ R' (h.sframe s)
        exact (hR _ _ (by omega)).mpr (.inl ⟨h2, by omega⟩)
    stkLt := by
      intro s s' hs
      have hs : (h.salive s && h.sframe s != h.top) = true := hs
      simp only [Bool.and_eq_true, bne_iff_ne] at hs
      exact inv.stkLt hs.1
    noub := inv.noub }

end Verif.Gc
