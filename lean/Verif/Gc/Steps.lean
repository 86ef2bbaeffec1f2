import Verif.Gc.Settle
/-
Every legal operation, other than popping a frame that is being marked, preserves the invariant.
-/
namespace Verif.Gc

/-- Every object is on one list, once. -/
def Part (ls : Lists) : Prop :=
  (∀ l, (ls l).Nodup) ∧ ∀ {l l' x}, x ∈ ls l → x ∈ ls l' → l = l'

def ma (ls : Lists) (dst src : LId) : Lists := upd (upd ls dst (ls src ++ ls dst)) src []

theorem mem_ma {ls : Lists} {dst src : LId} (hne : dst ≠ src) {x : Addr} {l : LId} :
    x ∈ ma ls dst src l ↔ l ≠ src ∧ (x ∈ ls l ∨ (l = dst ∧ x ∈ ls src)) := mem_moveAll hne

theorem part_ma {ls : Lists} (hp : Part ls) {dst src : LId} (hne : dst ≠ src) : Part (ma ls dst src) := by
  constructor
  · intro l
    unfold ma upd
    by_cases h1 : l = src
    · simp [h1]
    · by_cases h2 : l = dst
      · simp only [h2, if_true]
        split
        · exact List.nodup_nil
        · refine List.nodup_append.mpr ⟨hp.1 _, hp.1 _, ?_⟩
          intro a ha b hb e
          subst e
          exact hne (hp.2 hb ha)
      · simp only [h1, h2, if_false]
        exact hp.1 l
  · intro l l' x h1 h2
    rw [mem_ma hne] at h1 h2
    rcases h1 with ⟨a1, a2 | ⟨a2, a3⟩⟩ <;> rcases h2 with ⟨b1, b2 | ⟨b2, b3⟩⟩
    · exact hp.2 a2 b2
    · exact absurd (hp.2 a2 b3) a1
    · exact absurd (hp.2 b2 a3) b1
    · rw [a2, b2]

theorem part_mv {ls : Lists} (hp : Part ls) (dst : LId) (a : Addr) : Part (mv ls dst a) := by
  refine ⟨nodup_mv hp.1, ?_⟩
  intro l l' x h1 h2
  rw [mem_mv] at h1 h2
  by_cases hx : x = a
  · simp only [hx, if_true] at h1 h2
    rw [h1, h2]
  · simp only [hx, if_false] at h1 h2
    exact hp.2 h1 h2

theorem foldMove {h : Heap} {dst : LId} {q : Val → Bool} {F : Heap → Val → Heap}
    (hF : ∀ ls v, F { h with lists := ls } v =
      if q v then moveVal { h with lists := ls } dst v else { h with lists := ls })
    (vs : List Val) (hal : ∀ a, .gc a ∈ vs → h.alive a = true) {ls : Lists} (hp : Part ls) :
    ∃ ls', vs.foldl F { h with lists := ls } = { h with lists := ls' } ∧ Part ls' ∧
      ∀ x l, x ∈ ls' l ↔ if .gc x ∈ vs ∧ q (.gc x) = true then l = dst else x ∈ ls l := by
  induction vs generalizing ls with
  | nil => exact ⟨ls, rfl, hp, by simp⟩
  | cons v vs ih =>
    have step : ∃ ls1, F { h with lists := ls } v = { h with lists := ls1 } ∧ Part ls1 ∧
        ∀ x l, x ∈ ls1 l ↔ if .gc x = v ∧ q v = true then l = dst else x ∈ ls l := by
      rw [hF]
      by_cases hq : q v = true
      · rw [if_pos hq]
        cases v with
        | gc a =>
          have ha := hal a (by simp)
          refine ⟨mv ls dst a, ?_, part_mv hp _ _, ?_⟩
          · simp only [moveVal]
            exact moveTo_alive (h := { h with lists := ls }) dst ha
          · intro x l
            rw [mem_mv]
            by_cases hx : x = a
            · subst hx; simp [hq]
            · simp [hx]
        | imm n => exact ⟨ls, rfl, hp, by simp⟩
        | stk n => exact ⟨ls, rfl, hp, by simp⟩
        | uninit => exact ⟨ls, rfl, hp, by simp⟩
      · rw [if_neg hq]
        exact ⟨ls, rfl, hp, by simp [hq]⟩
    obtain ⟨ls1, e1, p1, m1⟩ := step
    obtain ⟨ls2, e2, p2, m2⟩ := ih (fun a ha => hal a (by simp [ha])) p1
    refine ⟨ls2, by rw [List.foldl_cons, e1, e2], p2, ?_⟩
    intro x l
    rw [m2, m1]
    by_cases h1 : Val.gc x ∈ vs <;> by_cases h2 : Val.gc x = v <;> by_cases h3 : q (.gc x) = true <;>
      simp_all

theorem mem_addrsOf {vs : List Val} {x} : x ∈ addrsOf vs ↔ .gc x ∈ vs := by
  induction vs with
  | nil => simp [addrsOf]
  | cons v vs ih => cases v <;> simp [addrsOf, ih]

theorem inGcRange_iff {h : Heap} {x} : inGcRange h (.gc x) = true ↔
    h.gcMin ≤ h.gen x ∧ h.gen x ≠ h.gcGen ∧ h.gen x < h.gcMax := by
  simp [inGcRange, and_assoc]

theorem inv_part {h R uc K} (inv : Inv h R uc K) : Part h.lists := ⟨inv.pl.nodup, inv.pl.disj⟩

/-- The end of CompactFrame: what concerns the collector. -/
def compactTail (t : Nat) (vs : List Val) (h3 : Heap) : Heap :=
  let h4 := if h3.gcFrame = t then
      let h4 := { h3 with interrupted := true }
      let keep := vs.filter (inGcRange h4)
      { keep.foldl (fun h v => moveVal h .gcMarked v) h4 with save := addrsOf keep }
    else h3
  if h4.gcNext = none then { h4 with gcNext := some t } else h4

/-- The end of FblePopFrame: what concerns the collector. -/
def popTail (t c : Nat) (v : Val) (h3 : Heap) : Heap :=
  let h4 := if h3.gcFrame = t then
      let h4 := { h3 with interrupted := true, gcFrame := c }
      if inGcRange h4 v then { moveVal h4 .gcMarked v with save := addrsOf [v] }
      else { h4 with save := [] }
    else h3
  if h4.gcNext = none ∨ h4.gcNext = some t then { h4 with gcNext := some c } else h4

theorem compact_inv {h R K} (inv : Inv h R [] K) {vs : List Val}
    (hE : ∀ v ∈ vs, Acc h R v ∧ ∀ s, v ≠ .stk s) :
    Inv (compactLists h vs) (upd R h.top vs) [] K ∧
    (∀ {d x}, d < h.top → x ∈ h.lists (.alloced d) → x ∈ (compactLists h vs).lists (.alloced d)) ∧
    (compactLists h vs).top = h.top ∧ (compactLists h vs).merges = h.merges := by
  have hal : ∀ a, .gc a ∈ vs → h.alive a = true := fun a ha => inv.accLive (hE _ ha).1
  -- the lists after the moves of compaction
  let g : Heap := { h with genF := upd h.genF h.top (h.maxGen h.top),
                           maxGen := upd h.maxGen h.top (h.maxGen h.top + 1),
                           salive := fun s => h.salive s && h.sframe s != h.top }
  let ls2 := ma (ma h.lists (.unmarked h.top) (.marked h.top)) (.unmarked h.top) (.alloced h.top)
  have p2 : Part ls2 := part_ma (part_ma (inv_part inv) (by simp)) (by simp)
  have m2 : ∀ x l, x ∈ ls2 l ↔ (x ∈ h.lists l ∧ l ≠ .alloced h.top ∧ l ≠ .marked h.top ∧ l ≠ .unmarked h.top) ∨
        (l = .unmarked h.top ∧ (x ∈ h.lists (.alloced h.top) ∨ x ∈ h.lists (.marked h.top) ∨
          x ∈ h.lists (.unmarked h.top))) := by
    intro x l
    show x ∈ ma (ma h.lists _ _) _ _ l ↔ _
    rw [mem_ma (by simp), mem_ma (by simp), mem_ma (by simp)]
    by_cases h1 : l = .unmarked h.top
    · subst h1; simp; tauto
    · simp [h1]; tauto
  obtain ⟨ls3, e3, p3, m3⟩ := foldMove (h := g) (dst := .marked h.top)
    (q := youngFrom h (h.minGen h.top))
    (F := fun h' v => if youngFrom h' (h'.minGen h.top) v then moveVal h' (.marked h.top) v else h')
    (by intro ls v; cases v <;> rfl) vs hal p2
  have hcl : ∃ ls gfr int sv nx, compactLists h vs =
      settled h h.top ls (upd h.genF h.top (h.maxGen h.top)) (upd h.maxGen h.top (h.maxGen h.top + 1))
        gfr int sv nx ∧ Part ls ∧
      (∀ x l, x ∈ ls l ↔ if .gc x ∈ vs ∧ h.gcFrame = h.top ∧ h.gcMin ≤ h.gen x ∧ h.gen x ≠ h.gcGen ∧ h.gen x < h.gcMax
        then l = .gcMarked else x ∈ ls3 l) ∧
      gfr = (if h.gcFrame = h.top then h.top else h.gcFrame) ∧
      int = (h.interrupted || decide (h.gcFrame = h.top)) ∧
      (∀ x, x ∈ sv ↔ if h.gcFrame = h.top then
        .gc x ∈ vs ∧ h.gcMin ≤ h.gen x ∧ h.gen x ≠ h.gcGen ∧ h.gen x < h.gcMax else x ∈ h.save) ∧
      nx = (if h.gcNext = none ∨ h.gcNext = some h.top then some h.top else h.gcNext) := by
    have e4 : compactLists h vs = compactTail h.top vs { g with lists := ls3 } := by
      rw [← e3]; rfl
    unfold compactTail at e4
    rw [e4]
    dsimp only
    by_cases hft : h.gcFrame = h.top
    · have hft' : g.gcFrame = h.top := hft
      rw [if_pos hft']
      obtain ⟨ls4, e5, p4, m4⟩ := foldMove (h := { g with interrupted := true }) (dst := .gcMarked)
        (q := fun _ => true) (F := fun h' v => moveVal h' .gcMarked v) (by intro ls v; rfl)
        (vs.filter (inGcRange h)) (fun a ha => hal a (List.mem_filter.mp ha).1) p3
      have e6 : inGcRange { g with lists := ls3, interrupted := true } = inGcRange h := by
        funext v; cases v <;> rfl
      rw [e6]
      have e7 : (vs.filter (inGcRange h)).foldl (fun h v => moveVal h .gcMarked v)
          { g with lists := ls3, interrupted := true } = { g with lists := ls4, interrupted := true } := e5
      rw [e7]
      have hmem : ∀ x l, x ∈ ls4 l ↔ if .gc x ∈ vs ∧ h.gcFrame = h.top ∧ h.gcMin ≤ h.gen x ∧ h.gen x ≠ h.gcGen ∧ h.gen x < h.gcMax
        then l = .gcMarked else x ∈ ls3 l := by
        intro x l
        rw [m4]
        simp only [List.mem_filter, and_true, inGcRange_iff, hft, true_and]
      have hsv : ∀ x, x ∈ addrsOf (vs.filter (inGcRange h)) ↔ if h.gcFrame = h.top then
        .gc x ∈ vs ∧ h.gcMin ≤ h.gen x ∧ h.gen x ≠ h.gcGen ∧ h.gen x < h.gcMax else x ∈ h.save := by
        intro x
        rw [if_pos hft, mem_addrsOf, List.mem_filter, inGcRange_iff]
      refine ⟨ls4, h.top, true, addrsOf (vs.filter (inGcRange h)),
        (if h.gcNext = none ∨ h.gcNext = some h.top then some h.top else h.gcNext), ?_, p4, hmem,
        by simp [hft], by simp [hft], hsv, rfl⟩
      by_cases hn : h.gcNext = none
      · have hn' : g.gcNext = none := hn
        simp only [hn', if_true, hn, true_or]
        simp only [settled, g, hft]
      · have hn' : g.gcNext ≠ none := hn
        simp only [hn', if_false, hn, false_or]
        have : (if h.gcNext = some h.top then some h.top else h.gcNext) = h.gcNext := by
          split
          · rename_i h5; exact h5.symm
          · rfl
        rw [this]
        simp only [settled, g, hft]
    · have hft' : g.gcFrame ≠ h.top := hft
      rw [if_neg hft']
      refine ⟨ls3, h.gcFrame, h.interrupted, h.save,
        (if h.gcNext = none ∨ h.gcNext = some h.top then some h.top else h.gcNext), ?_, p3,
        by intro x l; rw [if_neg (fun hc => hft hc.2.1)], by simp [hft], by simp [hft],
        by intro x; rw [if_neg hft], rfl⟩
      by_cases hn : h.gcNext = none
      · have hn' : g.gcNext = none := hn
        simp only [hn', if_true, hn, true_or]
        simp only [settled, g]
      · have hn' : g.gcNext ≠ none := hn
        simp only [hn', if_false, hn, false_or]
        have : (if h.gcNext = some h.top then some h.top else h.gcNext) = h.gcNext := by
          split
          · rename_i h5; exact h5.symm
          · rfl
        rw [this]
        simp only [settled, g]
  obtain ⟨ls, gfr, int, sv, nx, ec, pc, mc, hg, hi, hs, hn⟩ := hcl
  have hmem : ∀ x l, x ∈ ls l ↔
      if .gc x ∈ vs ∧ h.gcFrame = h.top ∧ h.gcMin ≤ h.gen x ∧ h.gen x ≠ h.gcGen ∧ h.gen x < h.gcMax
      then l = .gcMarked
      else if .gc x ∈ vs ∧ h.minGen h.top ≤ h.gen x then l = .marked h.top
      else (x ∈ h.lists l ∧ l ≠ .alloced h.top ∧ l ≠ .marked h.top ∧ l ≠ .unmarked h.top) ∨
        (l = .unmarked h.top ∧ (x ∈ h.lists (.alloced h.top) ∨ x ∈ h.lists (.marked h.top) ∨
          x ∈ h.lists (.unmarked h.top))) := by
    intro x l
    rw [mc, m3, m2]
    simp only [youngFrom, decide_eq_true_eq]
  have hg1 := inv.gens1 h.top (Nat.le_refl _)
  rw [ec]
  refine ⟨settle_inv inv (E := vs) (Nat.le_refl _) hE hmem pc.1 hg hi hs hn ?_ ?_ ?_ ?_ ?_ (by omega) ?_,
    ?_, rfl, rfl⟩
  · intro d hd
    exact ⟨upd_ne _ _ (by omega), upd_ne _ _ (by omega)⟩
  · rw [upd_same, upd_same]; omega
  · intro hc; omega
  · intro _; rw [upd_same]
  · left; rw [upd_same]; omega
  · intro d w hd
    by_cases hdt : d = h.top
    · subst hdt; simp
    · rw [upd_ne _ _ hdt]
      have : d < h.top := by omega
      simp [hdt, this]
  · intro d x hd hx
    show x ∈ ls (.alloced d)
    have hny : .gc x ∈ vs → ¬ h.minGen h.top ≤ h.gen x := by
      intro hv hy
      have ha := (hE _ hv).1
      have h1 := inv.accGen ha (.inl hx)
      have h2 := inv.chain (d := d) (e := h.top) hd (Nat.le_refl _)
      omega
    have hng : ¬ (.gc x ∈ vs ∧ h.gcFrame = h.top ∧ h.gcMin ≤ h.gen x ∧ h.gen x ≠ h.gcGen ∧ h.gen x < h.gcMax) := by
      rintro ⟨h1, h2, h3, _⟩
      have := inv.gcg.2.2
      rw [h2] at this
      exact hny h1 (by omega)
    rw [hmem, if_neg hng, if_neg (fun hc => hny hc.1 hc.2)]
    exact .inl ⟨hx, by simp; omega, by simp, by simp⟩

theorem pop_inv {h R K} (inv : Inv h R [] K) {v : Val} (htop : 0 < h.top)
    (hv : Acc h R v) (hns : ∀ s, v ≠ .stk s)
    (hgood : h.gcFrame = h.top → h.lists .gcMarked ≠ [] → youngFrom h (h.minGen h.top) v = true) :
    Inv (popLists h v) (upd R (h.top - 1) (v :: R (h.top - 1))) [] K ∧
    (∀ {d x}, d < h.top → x ∈ h.lists (.alloced d) → x ∈ (popLists h v).lists (.alloced d)) ∧
    (popLists h v).top = h.top - 1 ∧ (popLists h v).merges = h.merges := by
  have hE : ∀ w ∈ [v], Acc h R w ∧ ∀ s, w ≠ .stk s := by
    intro w hw
    simp only [List.mem_singleton] at hw
    subst hw
    exact ⟨hv, hns⟩
  have hal : ∀ a, v = .gc a → h.alive a = true := fun a ha => inv.accLive (ha ▸ hv)
  have hct : h.top - 1 ≠ h.top := by omega
  let c := h.top - 1
  let g : Heap := { h with top := c, salive := fun s => h.salive s && h.sframe s != h.top }
  let ls2 := ma (ma (ma h.lists (.unmarked c) (.unmarked h.top)) (.unmarked c) (.marked h.top))
    (.unmarked c) (.alloced h.top)
  have p2 : Part ls2 := part_ma (part_ma (part_ma (inv_part inv) (by simp [c, hct])) (by simp)) (by simp)
  have m2 : ∀ x l, x ∈ ls2 l ↔ (x ∈ h.lists l ∧ l ≠ .alloced h.top ∧ l ≠ .marked h.top ∧ l ≠ .unmarked h.top) ∨
        (l = .unmarked c ∧ (x ∈ h.lists (.alloced h.top) ∨ x ∈ h.lists (.marked h.top) ∨
          x ∈ h.lists (.unmarked h.top))) := by
    intro x l
    show x ∈ ma (ma (ma h.lists _ _) _ _) _ _ l ↔ _
    have hcc : c ≠ h.top := hct
    have h0 : (LId.unmarked c) ≠ .unmarked h.top := by simpa using hcc
    have h1 : (LId.unmarked c) ≠ .marked h.top := by simp
    have h2 : (LId.unmarked c) ≠ .alloced h.top := by simp
    simp only [mem_ma h0, mem_ma h1, mem_ma h2]
    by_cases h1 : l = .unmarked c
    · subst h1; simp [c, hct]; tauto
    · simp [h1]; tauto
  -- moving the returned value
  have m3 : ∃ ls3 mg, (let h3 := { g with lists := ls2 }
        if youngFrom h3 (h3.minGen h.top) v then
          moveVal { h3 with maxGen := upd h3.maxGen c (h3.maxGen h.top) } (.marked c) v
        else h3) = { g with lists := ls3, maxGen := mg } ∧ Part ls3 ∧
      (∀ x l, x ∈ ls3 l ↔ if .gc x ∈ [v] ∧ h.minGen h.top ≤ h.gen x then l = .marked c else x ∈ ls2 l) ∧
      mg = if youngFrom h (h.minGen h.top) v then upd h.maxGen c (h.maxGen h.top) else h.maxGen := by
    have hy : youngFrom { g with lists := ls2 } (h.minGen h.top) v = youngFrom h (h.minGen h.top) v := by
      cases v <;> rfl
    dsimp only
    have hmg : g.minGen = h.minGen := rfl
    rw [hmg, hy]
    by_cases hyv : youngFrom h (h.minGen h.top) v = true
    · simp only [hyv, if_true]
      cases v with
      | gc a =>
        refine ⟨mv ls2 (.marked c) a, _, ?_, part_mv p2 _ _, ?_, rfl⟩
        · simp only [moveVal]
          exact moveTo_alive _ (hal a rfl)
        · intro x l
          rw [mem_mv]
          simp only [youngFrom, decide_eq_true_eq] at hyv
          by_cases hx : x = a
          · subst hx; simp [hyv]
          · simp [hx]
      | imm n => simp [youngFrom] at hyv
      | stk n => simp [youngFrom] at hyv
      | uninit => simp [youngFrom] at hyv
    · simp only [hyv]
      refine ⟨ls2, h.maxGen, rfl, p2, ?_, rfl⟩
      intro x l
      rw [if_neg]
      rintro ⟨hx, hg⟩
      simp only [List.mem_singleton] at hx
      subst hx
      simp [youngFrom] at hyv
      omega
  obtain ⟨ls3, mg, e3, p3, m3, hmg⟩ := m3
  have hcl : ∃ ls gfr int sv nx, popLists h v =
      settled h c ls h.genF mg gfr int sv nx ∧ Part ls ∧
      (∀ x l, x ∈ ls l ↔ if .gc x ∈ [v] ∧ h.gcFrame = h.top ∧ h.gcMin ≤ h.gen x ∧ h.gen x ≠ h.gcGen ∧ h.gen x < h.gcMax
        then l = .gcMarked else x ∈ ls3 l) ∧
      gfr = (if h.gcFrame = h.top then c else h.gcFrame) ∧
      int = (h.interrupted || decide (h.gcFrame = h.top)) ∧
      (∀ x, x ∈ sv ↔ if h.gcFrame = h.top then
        .gc x ∈ [v] ∧ h.gcMin ≤ h.gen x ∧ h.gen x ≠ h.gcGen ∧ h.gen x < h.gcMax else x ∈ h.save) ∧
      nx = (if h.gcNext = none ∨ h.gcNext = some h.top then some c else h.gcNext) := by
    have e4 : popLists h v = popTail h.top c v { g with lists := ls3, maxGen := mg } := by
      rw [← e3]; rfl
    unfold popTail at e4
    rw [e4]
    dsimp only
    by_cases hft : h.gcFrame = h.top
    · have hft' : g.gcFrame = h.top := hft
      rw [if_pos hft']
      have e6 : inGcRange { g with lists := ls3, maxGen := mg, interrupted := true, gcFrame := c } v =
          inGcRange h v := by
        cases v <;> rfl
      rw [e6]
      have : ∃ ls4 sv, (if inGcRange h v then
          { moveVal { g with lists := ls3, maxGen := mg, interrupted := true, gcFrame := c } .gcMarked v
            with save := addrsOf [v] }
          else { g with lists := ls3, maxGen := mg, interrupted := true, gcFrame := c, save := [] }) =
          { g with lists := ls4, maxGen := mg, interrupted := true, gcFrame := c, save := sv } ∧ Part ls4 ∧
          (∀ x l, x ∈ ls4 l ↔ if .gc x ∈ [v] ∧ h.gcFrame = h.top ∧ h.gcMin ≤ h.gen x ∧ h.gen x ≠ h.gcGen ∧ h.gen x < h.gcMax
            then l = .gcMarked else x ∈ ls3 l) ∧
          (∀ x, x ∈ sv ↔ .gc x ∈ [v] ∧ h.gcMin ≤ h.gen x ∧ h.gen x ≠ h.gcGen ∧ h.gen x < h.gcMax) := by
        by_cases hir : inGcRange h v = true
        · simp only [hir, if_true]
          cases v with
          | gc a =>
            have hr := inGcRange_iff.mp hir
            refine ⟨mv ls3 .gcMarked a, addrsOf [.gc a], ?_, part_mv p3 _ _, ?_, ?_⟩
            · simp only [moveVal]
              rw [moveTo_alive (h := { g with lists := ls3, maxGen := mg, interrupted := true, gcFrame := c })
                _ (hal a rfl)]
            · intro x l
              rw [mem_mv]
              by_cases hx : x = a
              · subst hx
                rw [if_pos rfl, if_pos ⟨by simp, hft, hr⟩]
              · simp [hx]
            · intro x
              rw [mem_addrsOf]
              by_cases hx : x = a
              · subst hx
                exact ⟨fun h => ⟨h, hr⟩, fun h => h.1⟩
              · simp [hx]
          | imm n => simp [inGcRange] at hir
          | stk n => simp [inGcRange] at hir
          | uninit => simp [inGcRange] at hir
        · have hno : ∀ x, ¬ (.gc x ∈ [v] ∧ h.gcMin ≤ h.gen x ∧ h.gen x ≠ h.gcGen ∧ h.gen x < h.gcMax) := by
            rintro x ⟨h1, h2⟩
            simp only [List.mem_singleton] at h1
            exact hir (h1 ▸ inGcRange_iff.mpr h2)
          refine ⟨ls3, [], ?_, p3, ?_, ?_⟩
          · simp only [hir]; rfl
          · intro x l
            rw [if_neg (fun hc => hno x ⟨hc.1, hc.2.2⟩)]
          · intro x
            simp only [hno x]; simp
      obtain ⟨ls4, sv, e5, p4, m4, hsv⟩ := this
      rw [e5]
      refine ⟨ls4, c, true, sv, (if h.gcNext = none ∨ h.gcNext = some h.top then some c else h.gcNext),
        ?_, p4, m4, by simp [hft], by simp [hft], by intro x; rw [if_pos hft]; exact hsv x, rfl⟩
      by_cases hn : h.gcNext = none ∨ h.gcNext = some h.top
      · have hn' : g.gcNext = none ∨ g.gcNext = some h.top := hn
        simp only [hn', if_true, hn]
        simp only [settled, g]
      · have hn' : ¬ (g.gcNext = none ∨ g.gcNext = some h.top) := hn
        simp only [hn', if_false, hn]
        simp only [settled, g]
    · have hft' : g.gcFrame ≠ h.top := hft
      rw [if_neg hft']
      refine ⟨ls3, h.gcFrame, h.interrupted, h.save,
        (if h.gcNext = none ∨ h.gcNext = some h.top then some c else h.gcNext), ?_, p3,
        by intro x l; rw [if_neg (fun hc => hft hc.2.1)], by simp [hft], by simp [hft],
        by intro x; rw [if_neg hft], rfl⟩
      by_cases hn : h.gcNext = none ∨ h.gcNext = some h.top
      · have hn' : g.gcNext = none ∨ g.gcNext = some h.top := hn
        simp only [hn', if_true, hn]
        simp only [settled, g]
      · have hn' : ¬ (g.gcNext = none ∨ g.gcNext = some h.top) := hn
        simp only [hn', if_false, hn]
        simp only [settled, g]
  obtain ⟨ls, gfr, int, sv, nx, ec, pc, mc, hg, hi, hs, hn⟩ := hcl
  have hmem : ∀ x l, x ∈ ls l ↔
      if .gc x ∈ [v] ∧ h.gcFrame = h.top ∧ h.gcMin ≤ h.gen x ∧ h.gen x ≠ h.gcGen ∧ h.gen x < h.gcMax
      then l = .gcMarked
      else if .gc x ∈ [v] ∧ h.minGen h.top ≤ h.gen x then l = .marked c
      else (x ∈ h.lists l ∧ l ≠ .alloced h.top ∧ l ≠ .marked h.top ∧ l ≠ .unmarked h.top) ∨
        (l = .unmarked c ∧ (x ∈ h.lists (.alloced h.top) ∨ x ∈ h.lists (.marked h.top) ∨
          x ∈ h.lists (.unmarked h.top))) := by
    intro x l
    rw [mc, m3, m2]
  have hg1 := inv.gens1 h.top (Nat.le_refl _)
  have hgc := inv.gens1 c (by omega)
  have hch := inv.chain (d := c) (e := h.top) (by omega) (Nat.le_refl _)
  have hyOwn : ∀ x, v = .gc x → Own h.lists h.gcFrame x h.top → youngFrom h (h.minGen h.top) v = true := by
    rintro x rfl ho
    have := (inv.accGen hv ho).1
    simpa [youngFrom] using this
  rw [ec]
  refine ⟨settle_inv inv (E := [v]) (by omega) hE hmem pc.1 hg hi hs hn ?_ ?_ ?_ ?_ ?_ (by omega) ?_,
    ?_, rfl, rfl⟩
  · intro d hd
    refine ⟨rfl, ?_⟩
    rw [hmg]
    split
    · exact upd_ne _ _ (by omega)
    · rfl
  · rw [hmg]
    split
    · rw [upd_same]; omega
    · omega
  · intro _; rfl
  · intro hc; omega
  · by_cases hy : youngFrom h (h.minGen h.top) v = true
    · left
      rw [hmg, if_pos hy, upd_same]
      exact Nat.le_refl _
    · right
      refine ⟨by omega, fun hft => ?_, ?_⟩
      · by_contra hne
        exact hy (hgood hft hne)
      · intro x hx ho
        simp only [List.mem_singleton] at hx
        exact hy (hyOwn x hx.symm ho)
  · intro d w hd
    by_cases hdt : d = c
    · subst hdt
      rw [upd_same]
      have : c < h.top := by omega
      simp [this]
      tauto
    · have : upd R c (v :: R c) d = R d := upd_ne _ _ hdt
      rw [this]
      have : d < h.top := by omega
      simp [hdt, this]
  · intro d x hd hx
    show x ∈ ls (.alloced d)
    have hny : .gc x ∈ [v] → ¬ h.minGen h.top ≤ h.gen x := by
      intro hv hy
      have ha := (hE _ hv).1
      have h1 := inv.accGen ha (.inl hx)
      have h2 := inv.chain (d := d) (e := h.top) hd (Nat.le_refl _)
      omega
    have hng : ¬ (.gc x ∈ [v] ∧ h.gcFrame = h.top ∧ h.gcMin ≤ h.gen x ∧ h.gen x ≠ h.gcGen ∧ h.gen x < h.gcMax) := by
      rintro ⟨h1, h2, h3, _⟩
      have := inv.gcg.2.2
      rw [h2] at this
      exact hny h1 (by omega)
    rw [hmem, if_neg hng, if_neg (fun hc => hny hc.1 hc.2)]
    exact .inl ⟨hx, by simp; omega, by simp, by simp⟩

theorem newValue_inv {h R K} (inv : Inv h R [] K) (lb : Nat) {fs : List Val} (hfs : ∀ f ∈ fs, Acc h R f) :
    Inv (newValue h lb fs) (upd R h.top (.stk h.nextS :: R h.top)) [] K := by
  have hfresh : ∀ {s}, h.salive s = true → s ≠ h.nextS := fun hs e => by
    have := (inv.stack hs).2.2
    omega
  have hRm : ∀ d w, w ∈ upd R h.top (.stk h.nextS :: R h.top) d ↔ w ∈ R d ∨ (d = h.top ∧ w = .stk h.nextS) := by
    intro d w
    by_cases hd : d = h.top
    · subst hd; simp; tauto
    · rw [upd_ne _ _ hd]; simp [hd]
  have accTo : ∀ w, Acc (newValue h lb fs) (upd R h.top (.stk h.nextS :: R h.top)) w →
      Acc h R w ∨ w = .stk h.nextS := by
    intro w hw
    induction hw with
    | imm => exact .inl .imm
    | @root v hv =>
      obtain ⟨d, hd, hv⟩ := hv
      rcases (hRm d v).mp hv with h1 | h1
      · exact .inl (.root ⟨d, hd, h1⟩)
      · exact .inr h1.2
    | @step v w _ he ih =>
      rcases ih with ih | rfl
      · refine .inl ?_
        cases v with
        | gc a => exact .step ih he
        | stk s =>
          have hs := hfresh (inv.accStk ih)
          simp only [Edge, newValue, upd_ne _ _ hs] at he
          exact .step ih he
        | imm => exact he.elim
        | uninit => exact he.elim
      · simp only [Edge, newValue, upd_same] at he
        rcases he with he | ⟨a, ha, _⟩
        · exact .inl (hfs w he)
        · cases ha
  have hsl : ∀ {s}, upd h.salive h.nextS true s = true ↔ h.salive s = true ∨ s = h.nextS := by
    intro s
    by_cases hs : s = h.nextS
    · subst hs; simp
    · rw [upd_ne _ _ hs]; simp [hs]
  have vown : ∀ {v d}, Acc h R v → VOwn h.lists h.gcFrame (upd h.sframe h.nextS h.top) v d →
      VOwn h.lists h.gcFrame h.sframe v d := by
    intro v d ha ho
    cases v with
    | gc a => exact ho
    | stk s =>
      have hs := hfresh (inv.accStk ha)
      simp only [VOwn, upd_ne _ _ hs] at ho
      exact ho
    | imm => exact ho
    | uninit => exact ho
  have vtop : ∀ {v d}, Acc h R v → VOwn h.lists h.gcFrame h.sframe v d → d ≤ h.top := by
    intro v d ha ho
    cases v with
    | gc a => exact inv.ownTop ho
    | stk s =>
      have ho : h.sframe s = d := ho
      rw [← ho]; exact (inv.stack (inv.accStk ha)).1
    | imm => exact ho.elim
    | uninit => exact ho.elim
  have accGc : ∀ {a}, Acc (newValue h lb fs) (upd R h.top (.stk h.nextS :: R h.top)) (.gc a) →
      Acc h R (.gc a) := fun ha => (accTo _ ha).resolve_right (by simp)
  exact {
    pl := ⟨inv.pl.nodup, inv.pl.disj, inv.pl.alive, inv.pl.placed, inv.pl.fresh, inv.pl.book, inv.pl.above⟩
    gens1 := inv.gens1
    gens2 := inv.gens2
    allocGen := inv.allocGen
    frameTop := inv.frameTop
    next := inv.next
    nonint := inv.nonint
    isint := inv.isint
    gcg := inv.gcg
    stale := by
      rcases inv.stale with h1 | ⟨h1, h2, h3⟩
      · exact .inl h1
      · exact .inr ⟨h1, h2, fun a ha => h3 a (accGc ha)⟩
    accK := fun ha => inv.accK (accGc ha)
    accUninit := fun ha => inv.accUninit ((accTo _ ha).resolve_right (by simp))
    accStk := by
      intro s ha
      refine hsl.mpr ?_
      rcases accTo _ ha with h1 | h1
      · exact .inl (inv.accStk h1)
      · cases h1; exact .inr rfl
    kClosed := inv.kClosed
    kLive := inv.kLive
    kMarked := inv.kMarked
    kWhite := inv.kWhite
    kGen := inv.kGen
    kEdge := inv.kEdge
    accGen := fun ha => inv.accGen (accGc ha)
    accNe := fun ha => inv.accNe (accGc ha)
    rng := fun ha => inv.rng (accGc ha)
    edgeDepth := by
      intro v w d e ha he h1 h2
      rcases accTo _ ha with ha' | rfl
      · have he' : Edge h.fields h.sfields h.sgc v w := by
          cases v with
          | gc a => exact he
          | stk s =>
            have hs := hfresh (inv.accStk ha')
            simp only [Edge, newValue, upd_ne _ _ hs] at he
            exact he
          | imm => exact he.elim
          | uninit => exact he.elim
        exact inv.edgeDepth ha' he' (vown ha' h1) (vown (.step ha' he') h2)
      · have h1 : upd h.sframe h.nextS h.top h.nextS = d := h1
        rw [upd_same] at h1
        simp only [Edge, newValue, upd_same] at he
        rcases he with he | ⟨a, ha, _⟩
        · rw [← h1]
          exact vtop (hfs w he) (vown (hfs w he) h2)
        · cases ha
    rootDepth := by
      intro v d e hd hv ho
      rcases (hRm d v).mp hv with h1 | ⟨rfl, rfl⟩
      · exact inv.rootDepth hd h1 (vown (.root ⟨d, hd, h1⟩) ho)
      · have ho : upd h.sframe h.nextS h.top h.nextS = e := ho
        rw [upd_same] at ho
        omega
    markedRoot := fun hx => (hRm _ _).mpr (.inl (inv.markedRoot hx))
    saveRoot := fun hx => (hRm _ _).mpr (.inl (inv.saveRoot hx))
    saveAt := inv.saveAt
    white := fun hd ha => inv.white hd (accGc ha)
    clean := inv.clean
    ucAlloc := inv.ucAlloc
    ucStk := inv.ucStk
    stack := by
      intro s hs
      show upd h.sframe h.nextS h.top s ≤ h.top ∧ .stk s ∈ upd R h.top _ (upd h.sframe h.nextS h.top s) ∧
        s < h.nextS + 1
      by_cases hsn : s = h.nextS
      · subst hsn
        simp
      · rw [upd_ne _ _ hsn]
        obtain ⟨h1, h2, h3⟩ := inv.stack ((hsl.mp hs).resolve_right hsn)
        exact ⟨h1, (hRm _ _).mpr (.inl h2), by omega⟩
    stkLt := by
      intro s s' hs hm
      have hm : .stk s' ∈ upd h.sfields h.nextS fs s := hm
      by_cases hsn : s = h.nextS
      · subst hsn
        rw [upd_same] at hm
        exact (inv.stack (inv.accStk (hfs _ hm))).2.2
      · rw [upd_ne _ _ hsn] at hm
        exact inv.stkLt ((hsl.mp hs).resolve_right hsn) hm
    noub := inv.noub }

theorem newRef_inv {h R K} (inv : Inv h R [] K) (lb : Nat) :
    (∃ K', Inv (newRef h lb) (upd R h.top (.gc ((newRef h lb).nextA - 1) :: R h.top)) [] K') ∧
    (∀ {d x}, x ∈ h.lists (.alloced d) → x ∈ (newRef h lb).lists (.alloced d)) ∧
    (newRef h lb).nextA - 1 ∈ (newRef h lb).lists (.alloced h.top) ∧ (newRef h lb).top = h.top ∧
    (newRef h lb).merges = h.merges := by
  obtain ⟨⟨K1, i1⟩, ns, e1, fz⟩ := incrGc_inv inv
  have hd : h.top ≤ (incrGc h).top := by rw [e1.top]; exact Nat.le_refl _
  have hpl : Plain [Val.imm 0] := by
    intro f hf
    simp only [List.mem_singleton] at hf
    exact .inl ⟨0, hf⟩
  obtain ⟨i2, ns2, hacc⟩ := alloc_inv i1 ns hd lb hpl
  have hal : (incrGc h).nextA ∈ (allocGc (incrGc h) h.top lb [.imm 0]).lists (.alloced h.top) := by
    simp [allocGc]
  have hfl : (allocGc (incrGc h) h.top lb [.imm 0]).fields (incrGc h).nextA = [.imm 0] := by
    simp [allocGc]
  have i3 := grow_inv (a := (incrGc h).nextA) (d := h.top) i2 ns2 hal (.inr rfl)
    (by rw [hfl]; exact hpl) (sg := (incrGc h).sgc)
    (R' := upd R h.top (.gc (incrGc h).nextA :: R h.top)) (fun s x hx => .inl hx)
    (by
      intro e v hv
      by_cases he : e = h.top
      · subst he
        rw [upd_same] at hv
        rcases List.mem_cons.mp hv with h1 | h1
        · exact .inr ⟨h1, Nat.le_refl _⟩
        · exact .inl h1
      · rw [upd_ne _ _ he] at hv
        exact .inl hv)
    (by
      intro e v hv
      by_cases he : e = h.top
      · subst he
        rw [upd_same]
        exact List.mem_cons_of_mem _ hv
      · rw [upd_ne _ _ he]
        exact hv)
  have i4 := drop_uc i3 (by
    intro f hf
    have hf : f ∈ (allocGc (incrGc h) h.top lb [.imm 0]).fields (incrGc h).nextA := hf
    rw [hfl] at hf
    simp only [List.mem_singleton] at hf
    rw [hf]; simp) (i3.pl.alive hal)
  refine ⟨⟨_, i4⟩, ?_, hal, e1.top, e1.merges⟩
  intro d x hx
  have hx := e1.alloced hx
  show x ∈ upd (incrGc h).lists _ _ _
  by_cases hc : LId.alloced d = .alloced h.top
  · rw [hc, upd_same]; rw [hc] at hx; simp [hx]
  · rw [upd_ne _ _ hc]; exact hx

theorem realloc_inv {h R K} (inv : Inv h R [] K) {v : Val} (hv : Acc h R v) :
    Re h (realloc h v).1 R [] v (realloc h v).2 := by
  refine gcRealloc_inv h.nextS h v ⟨_, inv⟩ hv ?_
  rintro s rfl
  exact (inv.stack (inv.accStk hv)).2.2

theorem assignRef_inv {h R K} (inv : Inv h R [] K) {r : Addr} {v : Val} (hr : r ∈ h.lists (.alloced h.top))
    (hv : Acc h R v) :
    (∃ K', Inv (assignRef h r v) R [] K') ∧
    (∀ {d x}, x ∈ h.lists (.alloced d) → x ∈ (assignRef h r v).lists (.alloced d)) ∧
    (assignRef h r v).top = h.top ∧ (assignRef h r v).merges = h.merges := by
  have re := realloc_inv inv hv
  obtain ⟨K1, i1⟩ := re.inv
  have hal := re.ext.alloced hr
  have hown : ∀ e, VOwn (realloc h v).1.lists (realloc h v).1.gcFrame (realloc h v).1.sframe (realloc h v).2 e →
      e ≤ h.top := by
    intro e he
    rw [← re.ext.top]
    cases hv2 : (realloc h v).2 with
    | gc a => rw [hv2] at he; exact i1.ownTop he
    | stk s => exact absurd hv2 (re.nstk s)
    | imm => rw [hv2] at he; exact he.elim
    | uninit => rw [hv2] at he; exact he.elim
  obtain ⟨i2, _⟩ := setField_inv i1 hal 0 re.acc re.nstk hown
  refine ⟨⟨_, i2⟩, ?_, re.ext.top, re.ext.merges⟩
  intro d x hx
  exact re.ext.alloced hx

theorem reallocAll_inv {R} : ∀ (vs : List Val) {h : Heap} {K}, Inv h R [] K → (∀ v ∈ vs, Acc h R v) →
    (∃ K', Inv (reallocAll h vs).1 R [] K') ∧ Ext h (reallocAll h vs).1 R ∧
    ∀ v ∈ (reallocAll h vs).2, Acc (reallocAll h vs).1 R v ∧ ∀ s, v ≠ .stk s := by
  intro vs
  induction vs with
  | nil => intro h K inv _; exact ⟨⟨_, inv⟩, Ext.refl _ _, by simp [reallocAll]⟩
  | cons v vs ih =>
    intro h K inv hvs
    have re := realloc_inv inv (hvs v (by simp))
    obtain ⟨K1, i1⟩ := re.inv
    obtain ⟨i2, e2, h2⟩ := ih i1 (fun w hw => re.ext.acc (hvs w (by simp [hw])))
    refine ⟨i2, re.ext.trans e2, ?_⟩
    intro w hw
    rcases List.mem_cons.mp hw with rfl | hw
    · exact ⟨e2.acc re.acc, re.nstk⟩
    · exact h2 w hw

theorem merges_inv {h R K} (inv : Inv h R [] K) (m : Nat → Nat) : Inv { h with merges := m } R [] K :=
  { inv with
    pl := ⟨inv.pl.nodup, inv.pl.disj, inv.pl.alive, inv.pl.placed, inv.pl.fresh, inv.pl.book, inv.pl.above⟩
    stale := inv.stale }

theorem push_inv {h R K} (inv : Inv h R [] K) :
    Inv (pushFrame h false) (upd R (h.top + 1) []) [] K ∧ (pushFrame h false).lists = h.lists := by
  have hl : (pushFrame h false).lists = h.lists := by
    funext l
    simp only [pushFrame]
    have := inv.pl.above (h.top + 1) (by omega)
    simp only [Bool.false_eq_true, if_false]
    split
    · rename_i h1
      rcases h1 with rfl | rfl | rfl
      · exact this.1.symm
      · exact this.2.1.symm
      · exact this.2.2.symm
    · rfl
  refine ⟨?_, hl⟩
  have hRm : ∀ d w, d ≤ h.top → (w ∈ upd R (h.top + 1) [] d ↔ w ∈ R d) := by
    intro d w hd
    rw [upd_ne _ _ (by omega)]
  have accTo : ∀ w, Acc (pushFrame h false) (upd R (h.top + 1) []) w ↔ Acc h R w := by
    intro w
    constructor
    · intro hw
      refine Acc'.mono ?_ (fun v w hv he => .step hv he) hw
      rintro v ⟨d, hd, hv⟩
      have hd : d ≤ h.top + 1 := hd
      by_cases hdt : d = h.top + 1
      · subst hdt; simp at hv
      · exact .root ⟨d, by omega, (hRm d v (by omega)).mp hv⟩
    · intro hw
      refine Acc'.mono ?_ (fun v w hv he => .step hv he) hw
      rintro v ⟨d, hd, hv⟩
      exact .root ⟨d, Nat.le_succ_of_le hd, (hRm d v hd).mpr hv⟩
  have ownLe : ∀ {x d}, Own h.lists h.gcFrame x d → d ≤ h.top := fun ho => inv.ownTop ho
  have up : ∀ {f : Nat → Nat} {v d}, d ≤ h.top → upd f (h.top + 1) v d = f d :=
    fun hd => upd_ne _ _ (by omega)
  have e1 : (pushFrame h false).minGen = upd h.minGen (h.top + 1) (h.maxGen h.top) := rfl
  have e2 : (pushFrame h false).genF = upd h.genF (h.top + 1) (h.maxGen h.top) := rfl
  have e3 : (pushFrame h false).maxGen = upd h.maxGen (h.top + 1) (h.maxGen h.top + 1) := rfl
  have hft := inv.frameTop
  exact {
    pl := {
      nodup := by rw [hl]; exact inv.pl.nodup
      disj := by rw [hl]; exact inv.pl.disj
      alive := by rw [hl]; exact inv.pl.alive
      placed := by rw [hl]; exact inv.pl.placed
      fresh := inv.pl.fresh
      book := inv.pl.book
      above := by
        intro d hd
        rw [hl]
        have hd : h.top + 1 < d := hd
        exact inv.pl.above d (by omega) }
    gens1 := by
      intro d hd
      have hd : d ≤ h.top + 1 := hd
      rw [e1, e2, e3]
      by_cases hdt : d = h.top + 1
      · subst hdt; simp
      · rw [up (by omega), up (by omega), up (by omega)]
        exact inv.gens1 d (by omega)
    gens2 := by
      intro d hd
      have hd : d < h.top + 1 := hd
      rw [e1, e3, up (by omega)]
      by_cases hdt : d = h.top
      · subst hdt; simp
      · rw [up (by omega)]
        exact inv.gens2 d (by omega)
    allocGen := by
      intro d x hx
      rw [hl] at hx
      rw [e2, up (ownLe (.inl hx))]
      exact inv.allocGen hx
    frameTop := Nat.le_succ_of_le inv.frameTop
    next := fun n hn => ⟨(inv.next n hn).1, Nat.le_succ_of_le (inv.next n hn).2⟩
    nonint := by
      intro hi
      obtain ⟨h1, h2⟩ := inv.nonint hi
      refine ⟨h1, ?_⟩
      rw [e2]
      show h.gcGen = upd h.genF (h.top + 1) (h.maxGen h.top) h.gcFrame
      rw [up hft]; exact h2
    isint := inv.isint
    gcg := by
      refine ⟨inv.gcg.1, inv.gcg.2.1, ?_⟩
      show upd h.minGen (h.top + 1) (h.maxGen h.top) h.gcFrame ≤ h.gcMin
      rw [up hft]; exact inv.gcg.2.2
    stale := by
      rcases inv.stale with ⟨h1, h2⟩ | ⟨h1, h2, h3⟩
      · refine .inl ⟨?_, ?_⟩
        · show h.gcMax ≤ upd h.maxGen (h.top + 1) (h.maxGen h.top + 1) h.gcFrame
          rw [up hft]; exact h1
        · intro hi
          show upd h.genF (h.top + 1) (h.maxGen h.top) h.gcFrame < h.gcMin ∨
            h.gcMax ≤ upd h.genF (h.top + 1) (h.maxGen h.top) h.gcFrame
          rw [up hft]; exact h2 hi
      · exact .inr ⟨h1, by rw [hl]; exact h2, fun x hx => h3 x ((accTo _).mp hx)⟩
    accK := fun ha => inv.accK ((accTo _).mp ha)
    accUninit := fun ha => inv.accUninit ((accTo _).mp ha)
    accStk := fun ha => inv.accStk ((accTo _).mp ha)
    kClosed := inv.kClosed
    kLive := by rw [hl]; exact inv.kLive
    kMarked := by rw [hl]; exact inv.kMarked
    kWhite := by rw [hl]; exact inv.kWhite
    kGen := by rw [hl]; exact inv.kGen
    kEdge := by rw [hl]; exact inv.kEdge
    accGen := by
      intro x d ha ho
      rw [hl] at ho
      rw [e1, e3, up (ownLe ho), up (ownLe ho)]
      exact inv.accGen ((accTo _).mp ha) ho
    accNe := by
      intro x d ha ho
      rw [hl] at ho
      rw [e2, up (ownLe (ho.elim (fun h => .inr (.inl h)) (fun h => .inr (.inr (.inl h)))))]
      exact inv.accNe ((accTo _).mp ha) ho
    rng := by
      rw [hl]
      exact fun ha => inv.rng ((accTo _).mp ha)
    edgeDepth := by
      rw [hl]
      exact fun ha => inv.edgeDepth ((accTo _).mp ha)
    rootDepth := by
      intro v d e hd hv ho
      rw [hl] at ho
      have hd : d ≤ h.top + 1 := hd
      by_cases hdt : d = h.top + 1
      · subst hdt; simp at hv
      · exact inv.rootDepth (by omega) ((hRm d v (by omega)).mp hv) ho
    markedRoot := by
      intro x d hx
      rw [hl] at hx
      exact (hRm _ _ (ownLe (.inr (.inl hx)))).mpr (inv.markedRoot hx)
    saveRoot := fun hx => (hRm _ _ hft).mpr (inv.saveRoot hx)
    saveAt := by rw [hl]; exact inv.saveAt
    white := by
      intro d x hd ha hw
      rw [hl] at hw ⊢
      have hd : d ≤ h.top := by
        rcases hw with h1 | ⟨_, h1, _⟩
        · exact ownLe (.inr (.inr (.inl h1)))
        · rw [h1]; exact hft
      exact inv.white hd ((accTo _).mp ha) hw
    clean := inv.clean
    ucAlloc := fun hx => by cases hx
    ucStk := inv.ucStk
    stack := by
      intro s hs
      obtain ⟨h1, h2, h3⟩ := inv.stack hs
      exact ⟨Nat.le_succ_of_le h1, (hRm _ _ h1).mpr h2, h3⟩
    stkLt := inv.stkLt
    noub := inv.noub }

theorem initial_inv : Inv initial (fun _ => []) [] (fun _ => False) := by
  have noacc : ∀ v, Acc initial (fun _ => []) v → ∃ n, v = .imm n := by
    intro v hv
    induction hv with
    | imm => exact ⟨_, rfl⟩
    | root h => obtain ⟨d, _, h⟩ := h; cases h
    | step _ he ih => obtain ⟨n, rfl⟩ := ih; exact he.elim
  have nogc : ∀ {a}, ¬ Acc initial (fun _ => []) (.gc a) := fun ha => by
    obtain ⟨n, h⟩ := noacc _ ha; cases h
  have nostk : ∀ {a}, ¬ Acc initial (fun _ => []) (.stk a) := fun ha => by
    obtain ⟨n, h⟩ := noacc _ ha; cases h
  exact {
    pl := by
      refine ⟨fun l => List.nodup_nil, fun h => (by cases h), fun h => (by cases h), fun x h => (by cases h),
        fun x h => (by cases h), ⟨List.nodup_nil, fun x => ?_⟩, fun d _ => ⟨rfl, rfl, rfl⟩⟩
      constructor
      · intro h; cases h
      · rintro ⟨h, _⟩; exact absurd h (Nat.not_lt_zero _)
    gens1 := fun d _ => ⟨Nat.le_refl _, Nat.zero_lt_one⟩
    gens2 := fun d hd => absurd hd (Nat.not_lt_zero _)
    allocGen := fun h => by cases h
    frameTop := Nat.le_refl _
    next := fun n h => by cases h
    nonint := fun _ => ⟨rfl, rfl⟩
    isint := fun h => by cases h
    gcg := ⟨Nat.le_refl _, Nat.zero_lt_one, Nat.le_refl _⟩
    stale := .inl ⟨Nat.le_refl _, fun h => by cases h⟩
    accK := fun ha => nogc ha
    accUninit := fun ha => by obtain ⟨n, h⟩ := noacc _ ha; cases h
    accStk := fun ha => absurd ha nostk
    kClosed := fun h => h.elim
    kLive := fun h => h.elim
    kMarked := fun h => by cases h
    kWhite := fun h => h.elim
    kGen := fun h => h.elim
    kEdge := fun h => h.elim
    accGen := fun ha => absurd ha nogc
    accNe := fun ha => absurd ha nogc
    rng := fun ha => absurd ha nogc
    edgeDepth := by
      intro v w d e ha he
      obtain ⟨n, rfl⟩ := noacc _ ha
      exact he.elim
    rootDepth := fun _ h => by cases h
    markedRoot := fun h => by cases h
    saveRoot := fun h => by cases h
    saveAt := fun h => by cases h
    white := fun _ ha => absurd ha nogc
    clean := fun h => by cases h
    ucAlloc := fun h => by cases h
    ucStk := fun h => by cases h
    stack := fun h => by cases h
    stkLt := fun h => by cases h
    noub := rfl }

/-! ### Histories -/

theorem entitled_acc {s : Sys} {K} (inv : Inv s.heap s.roots [] K) {v} (hv : Entitled s v) :
    Acc s.heap s.roots v := by
  induction hv with
  | packed => exact .imm
  | handed hd hv => exact .root ⟨_, hd, hv⟩
  | @field v w _ hf ih =>
    cases v with
    | gc a => exact .step ih ⟨hf, (inv.clean (inv.accLive ih) (by simp) w hf).1⟩
    | stk n => exact .step ih (.inl hf)
    | imm => exact hf.elim
    | uninit => exact hf.elim

def SInv (s : Sys) : Prop :=
  (∃ K, Inv s.heap s.roots [] K) ∧
  ∀ d, d ≤ s.heap.top → ∀ r ∈ s.refs d, r ∈ s.heap.lists (.alloced d)

theorem step_inv {s : Sys} (hs : SInv s) {op : Op} (hl : Legal s op) (hb : ¬ PopsMarkingFrame s op) :
    SInv (step s op) := by
  obtain ⟨⟨K, inv⟩, hrefs⟩ := hs
  cases op with
  | new lb fs =>
    exact ⟨⟨_, newValue_inv inv lb fun f hf => entitled_acc inv (hl f hf)⟩, hrefs⟩
  | newRef lb =>
    obtain ⟨i, h1, h2, h3, _⟩ := newRef_inv inv lb
    refine ⟨?_, ?_⟩
    · show ∃ K, Inv (newRef s.heap lb) (upd s.roots (newRef s.heap lb).top (.gc ((newRef s.heap lb).nextA - 1) ::
        s.roots (newRef s.heap lb).top)) [] K
      rw [h3]; exact i
    · intro d hd r hr
      have hr : r ∈ upd s.refs (newRef s.heap lb).top (((newRef s.heap lb).nextA - 1) ::
        s.refs (newRef s.heap lb).top) d := hr
      have hd : d ≤ (newRef s.heap lb).top := hd
      rw [h3] at hr hd
      show r ∈ (newRef s.heap lb).lists (.alloced d)
      by_cases hdt : d = s.heap.top
      · subst hdt
        rw [upd_same] at hr
        rcases List.mem_cons.mp hr with rfl | hr
        · exact h2
        · exact h1 (hrefs _ hd r hr)
      · rw [upd_ne _ _ hdt] at hr
        exact h1 (hrefs d hd r hr)
  | assign r v =>
    obtain ⟨i, h1, h2, _⟩ := assignRef_inv inv (hrefs _ (Nat.le_refl _) r hl.1) (entitled_acc inv hl.2)
    refine ⟨i, ?_⟩
    intro d hd x hx
    have hd : d ≤ (assignRef s.heap r v).top := hd
    rw [h2] at hd
    exact h1 (hrefs d hd x hx)
  | push merge =>
    cases merge with
    | true => exact ⟨⟨_, merges_inv inv _⟩, hrefs⟩
    | false =>
      obtain ⟨i, h1⟩ := push_inv inv
      refine ⟨⟨_, i⟩, ?_⟩
      intro d hd r hr
      have hd : d ≤ s.heap.top + 1 := hd
      show r ∈ (pushFrame s.heap false).lists (.alloced d)
      rw [h1]
      have hr : r ∈ upd s.refs (s.heap.top + 1) [] d := hr
      by_cases hdt : d = s.heap.top + 1
      · subst hdt; simp at hr
      · rw [upd_ne _ _ hdt] at hr
        exact hrefs d (by omega) r hr
  | pop v =>
    by_cases hm : s.heap.merges s.heap.top > 0
    · simp only [step, hm, if_true, popFrame]
      exact ⟨⟨_, merges_inv inv _⟩, hrefs⟩
    · simp only [step, hm, if_false, popFrame]
      have hv := entitled_acc inv hl.1
      have re := realloc_inv inv hv
      obtain ⟨K1, i1⟩ := re.inv
      have htop : 0 < (realloc s.heap v).1.top := by
        rw [re.ext.top]; exact hl.2 (by omega)
      have hgood : (realloc s.heap v).1.gcFrame = (realloc s.heap v).1.top →
          (realloc s.heap v).1.lists .gcMarked ≠ [] →
          youngFrom (realloc s.heap v).1 ((realloc s.heap v).1.minGen (realloc s.heap v).1.top)
            (realloc s.heap v).2 = true := by
        rw [re.ext.top, re.ext.minGen]
        intro h1 h2
        by_contra h3
        exact hb ⟨by omega, h1, h2, by simpa using h3⟩
      obtain ⟨i2, h1, h2, _⟩ := pop_inv i1 htop re.acc re.nstk hgood
      rw [re.ext.top] at i2 h1 h2
      refine ⟨⟨_, i2⟩, ?_⟩
      intro d hd r hr
      have hd : d ≤ (popLists (realloc s.heap v).1 (realloc s.heap v).2).top := hd
      rw [h2] at hd
      rw [re.ext.top] at htop
      exact h1 (by omega) (re.ext.alloced (hrefs d (by omega) r hr))
  | compact merge vs =>
    cases merge with
    | true => exact ⟨⟨_, inv⟩, hrefs⟩
    | false =>
      by_cases hm : s.heap.merges s.heap.top > 0
      · simp only [step, hm, if_true, compactFrame, Bool.false_eq_true, if_false]
        obtain ⟨i, h1⟩ := push_inv (merges_inv inv (upd s.heap.merges s.heap.top (s.heap.merges s.heap.top - 1)))
        refine ⟨⟨_, i⟩, ?_⟩
        intro d hd r hr
        have hd : d ≤ s.heap.top + 1 := hd
        show r ∈ (pushFrame { s.heap with merges := _ } false).lists (.alloced d)
        rw [h1]
        have hr : r ∈ upd s.refs (s.heap.top + 1) [] d := hr
        by_cases hdt : d = s.heap.top + 1
        · subst hdt; simp at hr
        · rw [upd_ne _ _ hdt] at hr
          exact hrefs d (by omega) r hr
      · simp only [step, hm, if_false, compactFrame, Bool.false_eq_true]
        obtain ⟨⟨K1, i1⟩, e1, hE⟩ := reallocAll_inv vs inv fun v hv => entitled_acc inv (hl.1 v hv)
        obtain ⟨i2, h1, h2, _⟩ := compact_inv i1 hE
        rw [e1.top] at i2 h1 h2
        refine ⟨⟨_, i2⟩, ?_⟩
        intro d hd r hr
        have hd : d ≤ (compactLists (reallocAll s.heap vs).1 (reallocAll s.heap vs).2).top := hd
        rw [h2] at hd
        have hr : r ∈ upd s.refs s.heap.top [] d := hr
        by_cases hdt : d = s.heap.top
        · subst hdt; simp at hr
        · rw [upd_ne _ _ hdt] at hr
          exact h1 (by omega) (e1.alloced (hrefs d (by omega) r hr))
  | gc =>
    obtain ⟨i, _, e1, _⟩ := incrGc_inv inv
    refine ⟨i, ?_⟩
    intro d hd r hr
    have hd : d ≤ (incrGc s.heap).top := hd
    rw [e1.top] at hd
    exact e1.alloced (hrefs d hd r hr)

theorem history_inv {s : Sys} (hs : History PopsMarkingFrame s) : SInv s := by
  induction hs with
  | start => exact ⟨⟨_, initial_inv⟩, fun d _ r hr => by cases hr⟩
  | step op _ hl hb ih => exact step_inv ih hl hb

end Verif.Gc
