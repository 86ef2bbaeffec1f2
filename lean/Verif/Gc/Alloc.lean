import Verif.Gc.Incr
/-
Allocation, field stores and reallocation preserve the invariant.
-/
namespace Verif.Gc

/-- Only packed or uninitialised. -/
def Plain (fs : List Val) : Prop := ∀ f ∈ fs, (∃ n, f = .imm n) ∨ f = .uninit

theorem alloc_inv {h R uc K} (inv : Inv h R uc K) (hns : NotStale h) {d} (hd : d ≤ h.top)
    (lb : Nat) {fs} (hfs : Plain fs) :
    Inv (allocGc h d lb fs) R (h.nextA :: uc) (fun x => K x ∨ x = h.nextA) ∧
    NotStale (allocGc h d lb fs) ∧ (∀ v, Acc (allocGc h d lb fs) R v ↔ Acc h R v) := by
  have hKn : ∀ {x}, K x → x ≠ h.nextA := fun hk e => by
    subst e
    exact Nat.lt_irrefl _ (inv.pl.fresh _ (inv.kLive hk).1)
  have hdead : h.alive h.nextA ≠ true := fun hc => Nat.lt_irrefl _ (inv.pl.fresh _ hc)
  have hnl : ∀ l, h.nextA ∉ h.lists l := fun l hc => hdead (inv.pl.alive hc)
  have mem : ∀ {x l}, x ∈ upd h.lists (.alloced d) (h.nextA :: h.lists (.alloced d)) l ↔
      x ∈ h.lists l ∨ (x = h.nextA ∧ l = .alloced d) := by
    intro x l
    by_cases hl : l = .alloced d
    · subst hl; simp; tauto
    · rw [upd_ne _ _ hl]; simp [hl]
  have memNe : ∀ {x l}, l ≠ .alloced d →
      (x ∈ upd h.lists (.alloced d) (h.nextA :: h.lists (.alloced d)) l ↔ x ∈ h.lists l) := by
    intro x l hl
    rw [upd_ne _ _ hl]
  have eqNe : ∀ {l}, l ≠ .alloced d →
      upd h.lists (.alloced d) (h.nextA :: h.lists (.alloced d)) l = h.lists l := by
    intro l hl
    rw [upd_ne _ _ hl]
  have hfld : ∀ {x}, x ≠ h.nextA → upd h.fields h.nextA fs x = h.fields x := fun hx => upd_ne _ _ hx
  have accTo : ∀ v, Acc (allocGc h d lb fs) R v → Acc h R v := by
    intro v hv
    refine Acc'.mono (fun v hv => .root hv) ?_ hv
    intro v w hv he
    refine .step hv ?_
    cases v with
    | gc a =>
      have : a ≠ h.nextA := hKn (inv.accK hv)
      simp only [Edge, allocGc, hfld this] at he
      exact he
    | stk s => exact he
    | imm => exact he
    | uninit => exact he
  have accFrom : ∀ v, Acc h R v → Acc (allocGc h d lb fs) R v ∧ v ≠ .gc h.nextA := by
    intro v hv
    have hne : ∀ v, Acc h R v → v ≠ .gc h.nextA := fun v hv e => hKn (inv.accK (e ▸ hv)) rfl
    refine ⟨?_, hne v hv⟩
    induction hv with
    | imm => exact .imm
    | root h => exact .root h
    | @step v w hv he ih =>
      refine .step ih ?_
      cases v with
      | gc a =>
        have : a ≠ h.nextA := fun e => hne _ hv (by rw [e])
        simp only [Edge, allocGc, hfld this]
        exact he
      | stk s => exact he
      | imm => exact he
      | uninit => exact he
  have hInGc : ∀ {x}, InGc (allocGc h d lb fs).lists x ↔ InGc h.lists x := by
    intro x
    unfold InGc allocGc
    rw [memNe (by simp), memNe (by simp)]
  have hOwn : ∀ {x e}, x ≠ h.nextA →
      (Own (allocGc h d lb fs).lists h.gcFrame x e ↔ Own h.lists h.gcFrame x e) := by
    intro x e hx
    unfold Own
    rw [hInGc]
    simp [allocGc, mem, hx]
  have hVOwn : ∀ {v e}, v ≠ .gc h.nextA →
      (VOwn (allocGc h d lb fs).lists h.gcFrame h.sframe v e ↔ VOwn h.lists h.gcFrame h.sframe v e) := by
    intro v e hv
    cases v with
    | gc a => exact hOwn (fun e => hv (by rw [e]))
    | stk s => exact Iff.rfl
    | imm => exact Iff.rfl
    | uninit => exact Iff.rfl
  have hWh : Wh (allocGc h d lb fs).lists h.interrupted h.gcFrame = Wh h.lists h.interrupted h.gcFrame := by
    funext e x
    unfold Wh
    rw [hInGc]
    simp [allocGc, mem]
  have hGr : Gr (allocGc h d lb fs).lists h.interrupted h.gcFrame h.save =
      Gr h.lists h.interrupted h.gcFrame h.save := by
    funext e x
    unfold Gr
    simp [allocGc, mem]
  have hal : ∀ {x}, upd h.alive h.nextA true x = true ↔ h.alive x = true ∨ x = h.nextA := by
    intro x
    by_cases hx : x = h.nextA
    · subst hx; simp
    · rw [upd_ne _ _ hx]; simp [hx]
  have hgen : ∀ {x}, x ≠ h.nextA → upd h.gen h.nextA (h.genF d) x = h.gen x := fun hx => upd_ne _ _ hx
  have uninh : ∀ {x}, (.gc x : Val) ∈ fs → False := by
    intro x hx
    rcases hfs _ hx with ⟨n, h1⟩ | h1 <;> cases h1
  refine ⟨?_, hns, fun v => ⟨accTo v, fun hv => (accFrom v hv).1⟩⟩
  exact {
    pl := {
      nodup := by
        intro l
        show (upd h.lists (.alloced d) (h.nextA :: h.lists (.alloced d)) l).Nodup
        by_cases hl : l = .alloced d
        · subst hl
          rw [upd_same]
          exact List.nodup_cons.mpr ⟨hnl _, inv.pl.nodup _⟩
        · rw [upd_ne _ _ hl]; exact inv.pl.nodup l
      disj := by
        intro l l' x hx hx'
        rcases mem.mp hx with h1 | ⟨h1, h2⟩ <;> rcases mem.mp hx' with h3 | ⟨h3, h4⟩
        · exact inv.pl.disj h1 h3
        · exact absurd (h3 ▸ h1) (hnl _)
        · exact absurd (h1 ▸ h3) (hnl _)
        · rw [h2, h4]
      alive := by
        intro l x hx
        refine hal.mpr ?_
        rcases mem.mp hx with h1 | ⟨h1, h2⟩
        · exact .inl (inv.pl.alive h1)
        · exact .inr h1
      placed := by
        intro x hx
        rcases hal.mp hx with h1 | h1
        · obtain ⟨l, hl⟩ := inv.pl.placed x h1
          exact ⟨l, mem.mpr (.inl hl)⟩
        · exact ⟨.alloced d, mem.mpr (.inr ⟨h1, rfl⟩)⟩
      fresh := by
        intro x hx
        show x < h.nextA + 1
        rcases hal.mp hx with h1 | h1
        · exact Nat.lt_succ_of_lt (inv.pl.fresh x h1)
        · exact h1 ▸ Nat.lt_succ_self _
      book := by
        have hb := inv.pl.book
        refine ⟨hb.1, fun x => ?_⟩
        show x ∈ h.freed ↔ x < h.nextA + 1 ∧ upd h.alive h.nextA true x = false
        rw [hb.2 x]
        by_cases hx : x = h.nextA
        · subst hx
          simp
        · rw [upd_ne _ _ hx]
          have : x < h.nextA + 1 ↔ x < h.nextA :=
            ⟨fun hl => Nat.lt_of_le_of_ne (Nat.le_of_lt_succ hl) hx, fun hl => Nat.lt_succ_of_lt hl⟩
          rw [this]
      above := by
        intro e he
        have he : h.top < e := he
        have := inv.pl.above e he
        exact ⟨(eqNe (by simp; omega)).trans this.1, (eqNe (by simp)).trans this.2.1,
          (eqNe (by simp)).trans this.2.2⟩ }
    gens1 := inv.gens1
    gens2 := inv.gens2
    allocGen := by
      intro e x hx
      show upd h.gen h.nextA (h.genF d) x = h.genF e
      rcases mem.mp hx with h1 | ⟨h1, h2⟩
      · rw [hgen (fun e => hnl _ (e ▸ h1))]; exact inv.allocGen h1
      · cases h2; subst h1; simp
    frameTop := inv.frameTop
    next := inv.next
    nonint := inv.nonint
    isint := inv.isint
    gcg := inv.gcg
    stale := .inl hns
    accK := fun ha => .inl (inv.accK (accTo _ ha))
    accUninit := fun ha => inv.accUninit (accTo _ ha)
    accStk := fun ha => inv.accStk (accTo _ ha)
    kClosed := by
      intro x y hx hy
      have hy : .gc y ∈ upd h.fields h.nextA fs x := hy
      by_cases hc : x = h.nextA
      · subst hc
        rw [upd_same] at hy
        exact (uninh hy).elim
      · rw [hfld hc] at hy
        exact .inl (inv.kClosed (hx.resolve_right hc) hy)
    kLive := by
      intro x hx
      rcases hx with hx | hx
      · exact ⟨hal.mpr (.inl (inv.kLive hx).1), fun hf => (inv.kLive hx).2 ((memNe (by simp)).mp hf)⟩
      · exact ⟨hal.mpr (.inr hx), by
          subst hx; exact fun hf => hnl .gcFree ((memNe (by simp)).mp hf)⟩
    kMarked := fun hx => .inl (inv.kMarked ((memNe (by simp)).mp hx))
    kWhite := by
      intro x hk hx
      have hx : x ∈ h.lists .gcUnmarked := (memNe (by simp)).mp hx
      have hk : K x := hk.resolve_right (fun e => hnl _ (e ▸ hx))
      show Path (upd h.fields h.nextA fs) (· ∈ upd h.lists (.alloced d) (h.nextA :: h.lists (.alloced d)) .gcMarked)
        (· ∈ upd h.lists (.alloced d) (h.nextA :: h.lists (.alloced d)) .gcUnmarked) x
      rw [eqNe (by simp), eqNe (by simp)]
      refine Path.mono (fun y hy => .base hy) (fun y hy => .inr hy) ?_ (inv.kWhite hk hx)
      rintro y (hy | hy) <;> exact hfld (fun e => hnl _ (e ▸ hy))
    kGen := by
      intro x hk hx
      have hx := hInGc.mp hx
      have hn : x ≠ h.nextA := fun e => by
        subst e; rcases hx with hx | hx <;> exact hnl _ hx
      show h.gcMin ≤ upd h.gen h.nextA (h.genF d) x ∧ upd h.gen h.nextA (h.genF d) x < h.gcMax ∧
        upd h.gen h.nextA (h.genF d) x ≠ h.gcGen
      rw [hgen hn]
      exact inv.kGen (hk.resolve_right hn) hx
    kEdge := by
      intro x y hk hx hy
      have hx := hInGc.mp hx
      have hn : x ≠ h.nextA := fun e => by
        subst e; rcases hx with hx | hx <;> exact hnl _ hx
      have hy : .gc y ∈ upd h.fields h.nextA fs x := hy
      rw [hfld hn] at hy
      have hkx := hk.resolve_right hn
      have hyn := hKn (inv.kClosed hkx hy)
      show InGc (allocGc h d lb fs).lists y ∨ upd h.gen h.nextA (h.genF d) y = h.gcGen ∨
        upd h.gen h.nextA (h.genF d) y < h.gcMin
      rw [hgen hyn, hInGc]
      exact inv.kEdge hkx hx hy
    accGen := by
      intro x e ha ho
      have ha := accTo _ ha
      have hn := hKn (inv.accK ha)
      show h.minGen e ≤ upd h.gen h.nextA (h.genF d) x ∧ upd h.gen h.nextA (h.genF d) x < h.maxGen e
      rw [hgen hn]
      exact inv.accGen ha ((hOwn hn).mp ho)
    accNe := by
      intro x e ha ho
      have ha := accTo _ ha
      have hn := hKn (inv.accK ha)
      show upd h.gen h.nextA (h.genF d) x ≠ h.genF e
      rw [hgen hn]
      exact inv.accNe ha (ho.imp (memNe (by simp)).mp (memNe (by simp)).mp)
    rng := by
      intro x ha ho hg
      have ha := accTo _ ha
      have hn := hKn (inv.accK ha)
      show upd h.gen h.nextA (h.genF d) x < h.gcMin ∨ upd h.gen h.nextA (h.genF d) x = h.gcGen ∨
        h.gcMax ≤ upd h.gen h.nextA (h.genF d) x
      rw [hgen hn]
      exact inv.rng ha ((hOwn hn).mp ho) (fun hc => hg (hInGc.mpr hc))
    edgeDepth := by
      intro v w e e' ha he h1 h2
      have ha := accTo _ ha
      have hvn : v ≠ .gc h.nextA := (accFrom v ha).2
      have he' : Edge h.fields h.sfields h.sgc v w := by
        cases v with
        | gc a =>
          have : a ≠ h.nextA := fun e => hvn (by rw [e])
          simp only [Edge, allocGc, hfld this] at he
          exact he
        | stk s => exact he
        | imm => exact he
        | uninit => exact he
      have hwn : w ≠ .gc h.nextA := (accFrom w (.step ha he')).2
      exact inv.edgeDepth ha he' ((hVOwn hvn).mp h1) ((hVOwn hwn).mp h2)
    rootDepth := by
      intro v e e' he hv h1
      have ha : Acc h R v := .root ⟨e, he, hv⟩
      exact inv.rootDepth he hv ((hVOwn (accFrom v ha).2).mp h1)
    markedRoot := fun hx => inv.markedRoot ((memNe (by simp)).mp hx)
    saveRoot := inv.saveRoot
    saveAt := fun hx => (inv.saveAt hx).imp (memNe (by simp)).mpr (memNe (by simp)).mpr
    white := by
      intro e x he ha hw
      have hw : Wh (allocGc h d lb fs).lists h.interrupted h.gcFrame e x := hw
      show Path (upd h.fields h.nextA fs) (Gr (allocGc h d lb fs).lists h.interrupted h.gcFrame h.save e)
        (Wh (allocGc h d lb fs).lists h.interrupted h.gcFrame e) x
      rw [hWh] at hw ⊢
      rw [hGr]
      refine Path.mono (fun y hy => .base hy) (fun y hy => .inr hy) ?_ (inv.white he (accTo _ ha) hw)
      rintro y (hy | hy)
      · refine hfld (fun e => ?_)
        subst e
        rcases hy with hy | ⟨_, _, hy⟩
        · exact hnl _ hy
        · rcases inv.saveAt hy with hy | hy <;> exact hnl _ hy
      · refine hfld (fun e => ?_)
        subst e
        rcases hy with hy | ⟨_, _, hy | hy⟩ <;> exact hnl _ hy
    clean := by
      intro x hx hu
      simp only [List.mem_cons, not_or] at hu
      intro f hf
      have hf : f ∈ upd h.fields h.nextA fs x := hf
      rw [hfld hu.1] at hf
      exact inv.clean ((hal.mp hx).resolve_right hu.1) hu.2 f hf
    ucAlloc := by
      intro x hx
      rcases List.mem_cons.mp hx with hx | hx
      · exact ⟨d, hd, mem.mpr (.inr ⟨hx, rfl⟩)⟩
      · obtain ⟨e, he, hx⟩ := inv.ucAlloc hx
        exact ⟨e, he, mem.mpr (.inl hx)⟩
    ucStk := by
      intro x hx s hs
      have hs : .stk s ∈ upd h.fields h.nextA fs x := hs
      by_cases hc : x = h.nextA
      · subst hc
        rw [upd_same] at hs
        rcases hfs _ hs with ⟨n, h1⟩ | h1 <;> cases h1
      · rw [hfld hc] at hs
        exact inv.ucStk ((hal.mp hx).resolve_right hc) s hs
    stack := inv.stack
    stkLt := inv.stkLt
    noub := inv.noub }

/-- Making a new object accessible: as the GC copy of a stack object, or as a root. -/
theorem grow_inv {h R uc K} (inv : Inv h R uc K) (hns : NotStale h) {a d}
    (hal : a ∈ h.lists (.alloced d)) (hK : K a) (hfs : Plain (h.fields a))
    {sg : Nat → Option Addr} {R' : Nat → List Val}
    (hsg : ∀ s x, sg s = some x → h.sgc s = some x ∨ (x = a ∧ h.sframe s = d))
    (hR : ∀ e v, v ∈ R' e → v ∈ R e ∨ (v = .gc a ∧ d ≤ e)) (hR' : ∀ e v, v ∈ R e → v ∈ R' e) :
    Inv { h with sgc := sg } R' uc K := by
  have hown : ∀ {e}, Own h.lists h.gcFrame a e → e = d := fun ho => Own.unique inv.pl ho (.inl hal)
  have hdt : d ≤ h.top := inv.ownTop (.inl hal)
  have accTo : ∀ v, Acc { h with sgc := sg } R' v → Acc h R v ∨ v = .gc a := by
    intro v hv
    induction hv with
    | imm => exact .inl .imm
    | @root v hr =>
      obtain ⟨e, he, hv⟩ := hr
      rcases hR e v hv with h1 | h1
      · exact .inl (.root ⟨e, he, h1⟩)
      · exact .inr h1.1
    | @step v w hv he ih =>
      rcases ih with ih | rfl
      · cases v with
        | gc x => exact .inl (.step ih he)
        | stk s =>
          rcases he with he | ⟨x, hx, rfl⟩
          · exact .inl (.step ih (.inl he))
          · rcases hsg s x hx with h1 | h1
            · exact .inl (.step ih (.inr ⟨x, h1, rfl⟩))
            · exact .inr (by rw [h1.1])
        | imm => exact .inl (.step ih he)
        | uninit => exact .inl (.step ih he)
      · rcases hfs w he.1 with ⟨n, rfl⟩ | rfl
        · exact .inl .imm
        · exact absurd rfl he.2
  have accTo' : ∀ {v}, Acc { h with sgc := sg } R' v → v ≠ .gc a → Acc h R v :=
    fun hv hn => (accTo _ hv).resolve_right hn
  have nl : ∀ {l}, l ≠ .alloced d → a ∉ h.lists l := fun hl hc => hl (inv.pl.disj hc hal)
  have ng : ¬ InGc h.lists a := by
    rintro (hc | hc) <;> exact nl (by simp) hc
  exact {
    pl := ⟨inv.pl.nodup, inv.pl.disj, inv.pl.alive, inv.pl.placed, inv.pl.fresh, inv.pl.book, inv.pl.above⟩
    gens1 := inv.gens1
    gens2 := inv.gens2
    allocGen := inv.allocGen
    frameTop := inv.frameTop
    next := inv.next
    nonint := inv.nonint
    isint := inv.isint
    gcg := inv.gcg
    stale := .inl hns
    accK := by
      intro x hx
      rcases accTo _ hx with h1 | h1
      · exact inv.accK h1
      · cases h1; exact hK
    accUninit := fun hx => inv.accUninit (accTo' hx (by simp))
    accStk := fun hx => inv.accStk (accTo' hx (by simp))
    kClosed := inv.kClosed
    kLive := inv.kLive
    kMarked := inv.kMarked
    kWhite := inv.kWhite
    kGen := inv.kGen
    kEdge := inv.kEdge
    accGen := by
      intro x e hx ho
      rcases accTo _ hx with h1 | h1
      · exact inv.accGen h1 ho
      · cases h1
        have := hown ho
        subst this
        have := inv.allocGen hal
        have := inv.gens1 e hdt
        show h.minGen e ≤ h.gen a ∧ h.gen a < h.maxGen e
        omega
    accNe := by
      intro x e hx ho
      rcases accTo _ hx with h1 | h1
      · exact inv.accNe h1 ho
      · cases h1
        rcases ho with ho | ho <;> exact absurd ho (nl (by simp))
    rng := by
      intro x hx ho hg
      rcases accTo _ hx with h1 | h1
      · exact inv.rng h1 ho hg
      · cases h1
        have hd := hown ho
        have hg := inv.allocGen hal
        have hd : h.gcFrame = d := hd
        rw [← hd] at hg
        show h.gen a < h.gcMin ∨ h.gen a = h.gcGen ∨ h.gcMax ≤ h.gen a
        rw [hg]
        cases hi : h.interrupted with
        | false => exact .inr (.inl (inv.nonint hi).2.symm)
        | true => exact (hns.2 hi).imp_right .inr
    edgeDepth := by
      intro v w e e' hv he h1 h2
      by_cases hva : v = .gc a
      · subst hva
        rcases hfs w he.1 with ⟨n, rfl⟩ | rfl <;> exact absurd h2 id
      · have hv := accTo' hv hva
        cases v with
        | gc x => exact inv.edgeDepth hv he h1 h2
        | stk s =>
          rcases he with he | ⟨x, hx, rfl⟩
          · exact inv.edgeDepth hv (.inl he) h1 h2
          · rcases hsg s x hx with h3 | ⟨rfl, h3⟩
            · exact inv.edgeDepth hv (.inr ⟨x, h3, rfl⟩) h1 h2
            · have h4 := hown h2
              have h1 : h.sframe s = e := h1
              omega
        | imm => exact he.elim
        | uninit => exact he.elim
    rootDepth := by
      intro v e e' he hv ho
      rcases hR e v hv with h1 | ⟨rfl, h1⟩
      · exact inv.rootDepth he h1 ho
      · have := hown ho
        omega
    markedRoot := fun hx => hR' _ _ (inv.markedRoot hx)
    saveRoot := fun hx => hR' _ _ (inv.saveRoot hx)
    saveAt := inv.saveAt
    white := by
      intro e x he hx hw
      rcases accTo _ hx with h1 | h1
      · exact inv.white he h1 hw
      · cases h1
        rcases hw with hw | ⟨_, _, hw⟩
        · exact absurd hw (nl (by simp))
        · exact absurd hw ng
    clean := inv.clean
    ucAlloc := inv.ucAlloc
    ucStk := inv.ucStk
    stack := fun hs => ⟨(inv.stack hs).1, hR' _ _ (inv.stack hs).2.1, (inv.stack hs).2.2⟩
    stkLt := inv.stkLt
    noub := inv.noub }

/-- Storing an accessible value into a field of an object that was allocated since its frame was
last compacted. -/
theorem setField_inv {h R uc K} (inv : Inv h R uc K) {a d} (hal : a ∈ h.lists (.alloced d))
    (i : Nat) {v : Val} (hv : Acc h R v) (hns : ∀ s, v ≠ .stk s)
    (hd : ∀ e, VOwn h.lists h.gcFrame h.sframe v e → e ≤ d) :
    Inv (setField h a i v) R uc K ∧ (∀ w, Acc (setField h a i v) R w → Acc h R w) := by
  have hlive := inv.pl.alive hal
  have es : setField h a i v = { h with fields := upd h.fields a ((h.fields a).set i v) } := by
    unfold setField
    rw [touch_alive hlive]
  have hvu : v ≠ .uninit := fun e => inv.accUninit (e ▸ hv)
  have hown : ∀ {e}, Own h.lists h.gcFrame a e → e = d := fun ho => Own.unique inv.pl ho (.inl hal)
  have hfa : ∀ {w}, w ∈ (h.fields a).set i v → w ∈ h.fields a ∨ w = v := fun hw =>
    List.mem_or_eq_of_mem_set hw
  have hfld : ∀ {x}, x ≠ a → upd h.fields a ((h.fields a).set i v) x = h.fields x :=
    fun hx => upd_ne _ _ hx
  have edge : ∀ {x w}, Edge (upd h.fields a ((h.fields a).set i v)) h.sfields h.sgc x w →
      Edge h.fields h.sfields h.sgc x w ∨ (x = .gc a ∧ w = v) := by
    intro x w he
    cases x with
    | gc y =>
      by_cases hy : y = a
      · subst hy
        simp only [Edge, upd_same] at he
        rcases hfa he.1 with h1 | h1
        · exact .inl ⟨h1, he.2⟩
        · exact .inr ⟨rfl, h1⟩
      · simp only [Edge, hfld hy] at he
        exact .inl he
    | stk s => exact .inl he
    | imm => exact .inl he
    | uninit => exact .inl he
  have mem : ∀ {x w}, w ∈ upd h.fields a ((h.fields a).set i v) x →
      w ∈ h.fields x ∨ (x = a ∧ w = v) := by
    intro x w hw
    by_cases hy : x = a
    · subst hy
      rw [upd_same] at hw
      exact (hfa hw).imp_right fun h => ⟨rfl, h⟩
    · rw [hfld hy] at hw
      exact .inl hw
  have accTo : ∀ w, Acc { h with fields := upd h.fields a ((h.fields a).set i v) } R w → Acc h R w := by
    intro w hw
    refine Acc'.mono (fun v hv => .root hv) ?_ hw
    intro x y hx he
    rcases edge he with h1 | ⟨_, rfl⟩
    · exact .step hx h1
    · exact hv
  rw [es]
  refine ⟨?_, accTo⟩
  have nl : ∀ {l}, l ≠ .alloced d → a ∉ h.lists l := fun hl hc => hl (inv.pl.disj hc hal)
  have ng : ¬ InGc h.lists a := by
    rintro (hc | hc) <;> exact nl (by simp) hc
  exact {
    pl := ⟨inv.pl.nodup, inv.pl.disj, inv.pl.alive, inv.pl.placed, inv.pl.fresh, inv.pl.book, inv.pl.above⟩
    gens1 := inv.gens1
    gens2 := inv.gens2
    allocGen := inv.allocGen
    frameTop := inv.frameTop
    next := inv.next
    nonint := inv.nonint
    isint := inv.isint
    gcg := inv.gcg
    stale := by
      rcases inv.stale with h1 | ⟨h1, h2, h3⟩
      · exact .inl h1
      · exact .inr ⟨h1, h2, fun x hx => h3 x (accTo _ hx)⟩
    accK := fun hx => inv.accK (accTo _ hx)
    accUninit := fun hx => inv.accUninit (accTo _ hx)
    accStk := fun hx => inv.accStk (accTo _ hx)
    kClosed := by
      intro x y hx hy
      rcases mem hy with h1 | ⟨_, h1⟩
      · exact inv.kClosed hx h1
      · exact inv.accK (h1 ▸ hv)
    kLive := inv.kLive
    kMarked := inv.kMarked
    kWhite := by
      intro x hk hx
      refine Path.mono (fun y hy => .base hy) (fun y hy => .inr hy) ?_ (inv.kWhite hk hx)
      rintro y (hy | hy) <;> exact hfld (fun e => nl (by simp) (e ▸ hy))
    kGen := inv.kGen
    kEdge := by
      intro x y hk hx hy
      have hxa : x ≠ a := fun e => ng (e ▸ hx)
      exact inv.kEdge hk hx ((mem hy).resolve_right fun h => hxa h.1)
    accGen := fun hx => inv.accGen (accTo _ hx)
    accNe := fun hx => inv.accNe (accTo _ hx)
    rng := fun hx => inv.rng (accTo _ hx)
    edgeDepth := by
      intro x w e e' hx he h1 h2
      rcases edge he with h3 | ⟨rfl, rfl⟩
      · exact inv.edgeDepth (accTo _ hx) h3 h1 h2
      · rw [hown h1]
        exact hd _ h2
    rootDepth := inv.rootDepth
    markedRoot := inv.markedRoot
    saveRoot := inv.saveRoot
    saveAt := inv.saveAt
    white := by
      intro e x he hx hw
      refine Path.mono (fun y hy => .base hy) (fun y hy => .inr hy) ?_ (inv.white he (accTo _ hx) hw)
      rintro y (hy | hy)
      · refine hfld (fun e => ?_)
        subst e
        rcases hy with hy | ⟨_, _, hy⟩
        · exact nl (by simp) hy
        · rcases inv.saveAt hy with hy | hy <;> exact nl (by simp) hy
      · refine hfld (fun e => ?_)
        subst e
        rcases hy with hy | ⟨_, _, hy⟩
        · exact nl (by simp) hy
        · exact ng hy
    clean := by
      intro x hx hu f hf
      rcases mem hf with h1 | ⟨_, rfl⟩
      · exact inv.clean hx hu f h1
      · exact ⟨hvu, hns⟩
    ucAlloc := inv.ucAlloc
    ucStk := by
      intro x hx s hs
      rcases mem hs with h1 | ⟨_, h1⟩
      · exact inv.ucStk hx s h1
      · exact hns s h1.symm
    stack := inv.stack
    stkLt := inv.stkLt
    noub := inv.noub }

/-- An object all of whose fields are initialised need not be treated specially. -/
theorem drop_uc {h R uc K a} (inv : Inv h R (a :: uc) K)
    (hc : ∀ f ∈ h.fields a, f ≠ .uninit) (hal : h.alive a = true) : Inv h R uc K :=
  { inv with
    clean := by
      intro x hx hu f hf
      by_cases hxa : x = a
      · subst hxa
        exact ⟨hc f hf, fun s e => inv.ucStk hal s (e ▸ hf)⟩
      · exact inv.clean hx (by simp [hxa, hu]) f hf
    ucAlloc := fun hx => inv.ucAlloc (by simp [hx]) }

/-! ### Reallocation -/

theorem Ext.vown {h h' R uc K uc' K'} (inv : Inv h R uc K) (inv' : Inv h' R uc' K') (x : Ext h h' R)
    {v e} (hv : Acc h R v) (ho : VOwn h'.lists h'.gcFrame h'.sframe v e) :
    VOwn h.lists h.gcFrame h.sframe v e := by
  cases v with
  | gc a =>
    obtain ⟨d, _, hd⟩ := inv.hasOwn (inv.accK hv)
    have := Own.unique inv'.pl ho (x.own hv hd)
    subst this
    exact hd
  | stk s =>
    have ho : h'.sframe s = e := ho
    rw [x.sframe] at ho
    exact ho
  | imm => exact ho
  | uninit => exact ho

theorem setField_acc {h R a i v} (hal : h.alive a = true)
    (hu : ∀ w, (h.fields a)[i]? = some w → w = .uninit) {w} (hw : Acc h R w) :
    Acc (setField h a i v) R w := by
  unfold setField
  rw [touch_alive hal]
  refine Acc'.mono (fun v hv => .root hv) ?_ hw
  intro x y hx he
  refine .step hx ?_
  cases x with
  | gc b =>
    by_cases hb : b = a
    · subst hb
      simp only [Edge, upd_same]
      refine ⟨?_, he.2⟩
      obtain ⟨j, hj⟩ := List.mem_iff_getElem?.mp he.1
      have hji : i ≠ j := fun e => he.2 (hu _ (e ▸ hj))
      exact List.mem_iff_getElem?.mpr ⟨j, by rw [List.getElem?_set_ne hji]; exact hj⟩
    · simp only [Edge, upd_ne _ _ hb]
      exact he
  | stk s => exact he
  | imm => exact he
  | uninit => exact he

/-- Allocating the GC copy of a stack object. -/
theorem newCopy_inv {h R uc K} (inv : Inv h R uc K) {s} (hs : Acc h R (.stk s)) (hsg : h.sgc s = none)
    (lb : Nat) {fs} (hfs : Plain fs) :
    ∃ K', let h1 := newGc h (h.sframe s) lb fs
      Inv { h1 with sgc := upd h1.sgc s (some (h1.nextA - 1)) } R ((h1.nextA - 1) :: uc) K' ∧
      Ext h { h1 with sgc := upd h1.sgc s (some (h1.nextA - 1)) } R ∧ h1.nextA - 1 = h.nextA ∧
      h1.nextA - 1 ∈ h1.lists (.alloced (h.sframe s)) ∧ h1.fields (h1.nextA - 1) = fs ∧
      h1.label (h1.nextA - 1) = lb := by
  obtain ⟨⟨K1, i1⟩, ns, e1, fz⟩ := incrGc_inv inv
  have hst := inv.stack (inv.accStk hs)
  have hd : h.sframe s ≤ (incrGc h).top := by rw [e1.top]; exact hst.1
  obtain ⟨i2, ns2, hacc⟩ := alloc_inv i1 ns hd lb hfs
  have e0 : (newGc h (h.sframe s) lb fs).nextA - 1 = (incrGc h).nextA := rfl
  have hal : (incrGc h).nextA ∈ (allocGc (incrGc h) (h.sframe s) lb fs).lists (.alloced (h.sframe s)) := by
    simp [allocGc]
  have i3 := grow_inv (a := (incrGc h).nextA) (d := h.sframe s) i2 ns2 hal (.inr rfl)
    (by simp only [allocGc, upd_same]; exact hfs)
    (sg := upd (incrGc h).sgc s (some (incrGc h).nextA)) (R' := R)
    (by
      intro s' x hx
      by_cases hc : s' = s
      · subst hc
        rw [upd_same] at hx
        cases hx
        refine .inr ⟨rfl, ?_⟩
        show (incrGc h).sframe s' = h.sframe s'
        rw [e1.sframe]
      · rw [upd_ne _ _ hc] at hx
        exact .inl hx)
    (fun e v hv => .inl hv) (fun e v hv => hv)
  refine ⟨_, i3, ?_, ?_, hal, ?_, ?_⟩
  · refine e1.trans ?_
    refine ⟨rfl, rfl, rfl, rfl, rfl, rfl, rfl, rfl, rfl, rfl, Nat.le_succ _, ?_, ?_, ?_, ?_, ?_, ?_⟩
    · intro x hx
      exact upd_ne _ _ (Nat.ne_of_lt hx)
    · intro x hx
      exact upd_ne _ _ (Nat.ne_of_lt hx)
    · intro s' x hx
      have : s' ≠ s := by
        intro e; subst e
        rw [fz.sgc, hsg] at hx
        cases hx
      show upd (incrGc h).sgc s _ s' = some x
      rw [upd_ne _ _ this]; exact hx
    · intro d x hx
      show x ∈ upd (incrGc h).lists _ _ _
      by_cases hc : LId.alloced d = .alloced (h.sframe s)
      · rw [hc, upd_same]; rw [hc] at hx; simp [hx]
      · rw [upd_ne _ _ hc]; exact hx
    · intro x d _ ho
      show Own (upd (incrGc h).lists _ _) (incrGc h).gcFrame x d
      rcases ho with h1 | h1 | h1 | ⟨h0, h1 | h1⟩
      · refine .inl ?_
        by_cases hc : LId.alloced d = .alloced (h.sframe s)
        · rw [hc, upd_same]; rw [hc] at h1; simp [h1]
        · rw [upd_ne _ _ hc]; exact h1
      · exact .inr (.inl (by rw [upd_ne _ _ (by simp)]; exact h1))
      · exact .inr (.inr (.inl (by rw [upd_ne _ _ (by simp)]; exact h1)))
      · exact .inr (.inr (.inr ⟨h0, .inl (by rw [upd_ne _ _ (by simp)]; exact h1)⟩))
      · exact .inr (.inr (.inr ⟨h0, .inr (by rw [upd_ne _ _ (by simp)]; exact h1)⟩))
    · intro v hv
      have hv := (hacc v).mpr hv
      refine Acc'.mono (fun v hv => .root hv) ?_ hv
      intro x y hx he
      refine .step hx ?_
      cases x with
      | gc b => exact he
      | stk s' =>
        rcases he with he | ⟨b, hb, rfl⟩
        · exact .inl he
        · have : s' ≠ s := by
            intro e; subst e
            have hb : (incrGc h).sgc s' = some b := hb
            rw [fz.sgc, hsg] at hb
            cases hb
          exact .inr ⟨b, (upd_ne _ _ this).trans hb, rfl⟩
      | imm => exact he
      | uninit => exact he
  · rw [e0, fz.nextA]
  · show upd _ _ _ _ = _
    rw [e0, upd_same]
  · show upd _ _ _ _ = _
    rw [e0, upd_same]

/-- What reallocating `v` to `v'` achieves. -/
structure Re (h h' : Heap) (R : Nat → List Val) (uc : List Addr) (v v' : Val) : Prop where
  inv : ∃ K, Inv h' R uc K
  ext : Ext h h' R
  acc : Acc h' R v'
  nstk : ∀ s, v' ≠ .stk s
  own : ∀ {d}, (∀ e, VOwn h.lists h.gcFrame h.sframe v e → e ≤ d) →
    ∀ e, VOwn h'.lists h'.gcFrame h'.sframe v' e → e ≤ d

theorem reallocFields_inv {R uc a d fuel} {rec : Heap → Val → Heap × Val} {h0 : Heap}
    (hrec : ∀ h f, (∃ K, Inv h R (a :: uc) K) → Acc h R f → (∀ s, f = .stk s → s < fuel) →
      Re h (rec h f).1 R (a :: uc) f (rec h f).2) (ha0 : h0.nextA ≤ a) :
    ∀ (fs : List Val) (i : Nat) (h : Heap), (∃ K, Inv h R (a :: uc) K) → Ext h0 h R →
      a ∈ h.lists (.alloced d) → a < h.nextA →
      (∀ f ∈ fs, Acc h R f ∧ (∀ s, f = .stk s → s < fuel) ∧
        ∀ e, VOwn h.lists h.gcFrame h.sframe f e → e ≤ d) →
      (∀ j w, (h.fields a)[j]? = some w → i ≤ j → w = .uninit) →
      (∀ j w, (h.fields a)[j]? = some w → j < i → w ≠ .uninit) →
      (h.fields a).length = i + fs.length →
      (∃ K, Inv (reallocFields rec a i fs h) R (a :: uc) K) ∧ Ext h0 (reallocFields rec a i fs h) R ∧
      (∀ f ∈ (reallocFields rec a i fs h).fields a, f ≠ .uninit) ∧
      a ∈ (reallocFields rec a i fs h).lists (.alloced d) ∧
      (∀ s x, h.sgc s = some x → (reallocFields rec a i fs h).sgc s = some x) := by
  intro fs
  induction fs with
  | nil =>
    intro i h hi e0 hal hlt _ _ hdone hlen
    refine ⟨hi, e0, ?_, hal, fun _ _ h => h⟩
    intro f hf
    obtain ⟨j, hj⟩ := List.mem_iff_getElem?.mp hf
    refine hdone j f hj ?_
    have : j < (h.fields a).length := (List.getElem?_eq_some_iff.mp hj).1
    simp at hlen
    omega
  | cons f fs ih =>
    intro i h hi e0 hal hlt hfs hrest hdone hlen
    obtain ⟨hf1, hf2, hf3⟩ := hfs f (by simp)
    have re := hrec h f hi hf1 hf2
    obtain ⟨K, inv⟩ := hi
    obtain ⟨K1, inv1⟩ := re.inv
    have hal1 : a ∈ (rec h f).1.lists (.alloced d) := re.ext.alloced hal
    have hflds : (rec h f).1.fields a = h.fields a := re.ext.fields a hlt
    have hlive1 := inv1.pl.alive hal1
    have hdep := re.own hf3
    obtain ⟨inv2, acc2⟩ := setField_inv inv1 hal1 i re.acc re.nstk hdep
    have hsf : (setField (rec h f).1 a i (rec h f).2) =
        { (rec h f).1 with fields := upd (rec h f).1.fields a ((h.fields a).set i (rec h f).2) } := by
      unfold setField
      rw [touch_alive hlive1, hflds]
    have hu : ∀ w, ((rec h f).1.fields a)[i]? = some w → w = .uninit := by
      intro w hw
      rw [hflds] at hw
      exact hrest i w hw (Nat.le_refl _)
    have acc3 : ∀ {w}, Acc (rec h f).1 R w → Acc (setField (rec h f).1 a i (rec h f).2) R w :=
      fun hw => setField_acc hlive1 hu hw
    have hvu : (rec h f).2 ≠ .uninit := fun e => inv1.accUninit (e ▸ re.acc)
    have e1 : Ext h0 (rec h f).1 R := e0.trans re.ext
    have e2 : Ext h0 (setField (rec h f).1 a i (rec h f).2) R := by
      refine ⟨?_, ?_, ?_, ?_, ?_, ?_, ?_, ?_, ?_, ?_, ?_, ?_, ?_, ?_, ?_, ?_, fun hv => acc3 (e1.acc hv)⟩
      all_goals rw [hsf]
      · exact e1.top
      · exact e1.merges
      · exact e1.minGen
      · exact e1.genF
      · exact e1.maxGen
      · exact e1.slabel
      · exact e1.sfields
      · exact e1.sframe
      · exact e1.salive
      · exact e1.nextS
      · exact e1.nextA
      · intro x hx
        exact (upd_ne _ _ (Nat.ne_of_lt (Nat.lt_of_lt_of_le hx ha0))).trans (e1.fields x hx)
      · exact e1.label
      · exact e1.sgc
      · exact e1.alloced
      · exact e1.own
    have hsgc : ∀ s x, h.sgc s = some x → (setField (rec h f).1 a i (rec h f).2).sgc s = some x := by
      rw [hsf]
      exact re.ext.sgc
    refine (fun hsuf => ⟨hsuf.1, hsuf.2.1, hsuf.2.2.1, hsuf.2.2.2.1,
      fun s x hx => hsuf.2.2.2.2 s x (hsgc s x hx)⟩) (ih (i + 1) _ ⟨_, inv2⟩ e2 (by rw [hsf]; exact hal1)
      (by rw [hsf]; exact Nat.lt_of_lt_of_le hlt re.ext.nextA) ?_ ?_ ?_ ?_)
    · intro g hg
      obtain ⟨g1, g2, g3⟩ := hfs g (by simp [hg])
      refine ⟨acc3 (re.ext.acc g1), g2, ?_⟩
      intro e he
      rw [hsf] at he
      exact g3 e (re.ext.vown inv inv1 g1 he)
    · intro j w hj hij
      rw [hsf] at hj
      simp only [upd_same] at hj
      rw [List.getElem?_set_ne (by omega)] at hj
      exact hrest j w hj (by omega)
    · intro j w hj hij
      rw [hsf] at hj
      simp only [upd_same] at hj
      by_cases hc : i = j
      · subst hc
        rw [List.getElem?_set_self (by simp at hlen; omega)] at hj
        cases hj
        exact hvu
      · rw [List.getElem?_set_ne hc] at hj
        exact hdone j w hj (by omega)
    · rw [hsf]
      simp only [upd_same, List.length_set]
      simp at hlen
      omega

theorem gcRealloc_inv {R} (fuel : Nat) : ∀ {uc : List Addr} (h : Heap) (v : Val), (∃ K, Inv h R uc K) →
    Acc h R v → (∀ s, v = .stk s → s < fuel) →
    Re h (gcRealloc fuel h v).1 R uc v (gcRealloc fuel h v).2 := by
  induction fuel with
  | zero =>
    intro uc h v hi hv hs
    cases v with
    | imm n => exact ⟨hi, Ext.refl _ _, hv, by simp [gcRealloc], fun h => h⟩
    | gc a =>
      obtain ⟨K, inv⟩ := hi
      simp only [gcRealloc]
      rw [touch_alive (inv.accLive hv)]
      exact ⟨⟨K, inv⟩, Ext.refl _ _, hv, by simp, fun h => h⟩
    | uninit =>
      obtain ⟨K, inv⟩ := hi
      exact absurd hv inv.accUninit
    | stk s => exact absurd (hs s rfl) (by omega)
  | succ fuel ih =>
    intro uc h v hi hv hs
    cases v with
    | imm n => exact ⟨hi, Ext.refl _ _, hv, by simp [gcRealloc], fun h => h⟩
    | gc a =>
      obtain ⟨K, inv⟩ := hi
      simp only [gcRealloc]
      rw [touch_alive (inv.accLive hv)]
      exact ⟨⟨K, inv⟩, Ext.refl _ _, hv, by simp, fun h => h⟩
    | uninit =>
      obtain ⟨K, inv⟩ := hi
      exact absurd hv inv.accUninit
    | stk s =>
      obtain ⟨K, inv⟩ := hi
      have hsal := inv.accStk hv
      have hub : ({ h with ub := h.ub || !h.salive s } : Heap) = h := by
        simp [hsal]
      simp only [gcRealloc, hub]
      cases hsg : h.sgc s with
      | some a =>
        simp only []
        refine ⟨⟨K, inv⟩, Ext.refl _ _, .step hv (.inr ⟨a, hsg, rfl⟩), by simp, ?_⟩
        intro d hd e he
        exact Nat.le_trans (inv.edgeDepth hv (.inr ⟨a, hsg, rfl⟩) (d := h.sframe s) rfl he) (hd _ rfl)
      | none =>
        simp only []
        have hpl : Plain ((h.sfields s).map fun _ => Val.uninit) := by
          intro f hf
          simp only [List.mem_map] at hf
          obtain ⟨_, _, rfl⟩ := hf
          exact .inr rfl
        obtain ⟨K1, i1, e1, hn, hal, hfl, _⟩ := newCopy_inv inv hv hsg (h.slabel s) hpl
        generalize hh1 : newGc h (h.sframe s) (h.slabel s) ((h.sfields s).map fun _ => Val.uninit) = h1 at *
        have hacc2 : Acc { h1 with sgc := upd h1.sgc s (some (h1.nextA - 1)) } R (.gc (h1.nextA - 1)) :=
          .step (e1.acc hv) (.inr ⟨_, upd_same _ _ _, rfl⟩)
        have sfl : h1.sfields = h.sfields := e1.sfields
        obtain ⟨⟨K2, i2⟩, e2, hcl, hal2, hsgm⟩ := reallocFields_inv (R := R) (uc := uc) (a := h1.nextA - 1)
          (d := h.sframe s) (fuel := fuel) (rec := gcRealloc fuel) (h0 := h)
          (fun g f hg hf hs => ih g f hg hf hs) (by rw [hn]; exact Nat.le_refl _) (h1.sfields s) 0 _ ⟨_, i1⟩ e1 hal
          (i1.pl.fresh _ (i1.pl.alive hal))
          (by
            intro f hf
            rw [sfl] at hf
            have hfa : Acc h R f := .step hv (.inl hf)
            refine ⟨e1.acc hfa, ?_, ?_⟩
            · rintro s' rfl
              have := inv.stkLt hsal hf
              have := hs s rfl
              omega
            · intro e he
              exact inv.edgeDepth hv (.inl hf) (d := h.sframe s) rfl (e1.vown inv i1 hfa he))
          (by
            intro j w hj _
            have hj : (h1.fields (h1.nextA - 1))[j]? = some w := hj
            rw [hfl] at hj
            simp only [List.getElem?_map, Option.map_eq_some_iff] at hj
            obtain ⟨_, _, rfl⟩ := hj
            rfl)
          (by intro j w _ hj; omega)
          (by
            show (h1.fields (h1.nextA - 1)).length = _
            rw [hfl, sfl]; simp)
        have hlive := i2.pl.alive hal2
        refine ⟨⟨_, drop_uc i2 hcl hlive⟩, e2, ?_, by simp, ?_⟩
        · have hst := e2.acc hv
          refine .step hst (.inr ⟨_, ?_, rfl⟩)
          exact hsgm _ _ (upd_same _ _ _)
        · intro d hd e he
          have := Own.unique i2.pl he (.inl hal2)
          rw [this]
          exact hd _ rfl

end Verif.Gc
