import Verif.Gc.Inv
/-
IncrGc preserves the invariant.
-/
namespace Verif.Gc

theorem markRefs_spec (vs : List Val) (h : Heap) (hn : ∀ l, (h.lists l).Nodup)
    (hg : ∀ v ∈ vs, (∃ n, v = .imm n) ∨ ∃ a, v = .gc a ∧ h.alive a = true) :
    ∃ ls, markRefs h vs = { h with lists := ls } ∧ (∀ l, (ls l).Nodup) ∧
      ∀ x l, x ∈ ls l ↔ if .gc x ∈ vs ∧ h.gcMin ≤ h.gen x ∧ h.gen x ≠ h.gcGen then l = .gcMarked
        else x ∈ h.lists l := by
  induction vs generalizing h with
  | nil => exact ⟨h.lists, rfl, hn, by simp⟩
  | cons v vs ih =>
    have step : ∃ ls1, markRef h v = { h with lists := ls1 } ∧ (∀ l, (ls1 l).Nodup) ∧
        ∀ x l, x ∈ ls1 l ↔ if .gc x = v ∧ h.gcMin ≤ h.gen x ∧ h.gen x ≠ h.gcGen then l = .gcMarked
          else x ∈ h.lists l := by
      rcases hg v (by simp) with ⟨n, rfl⟩ | ⟨a, rfl, ha⟩
      · exact ⟨h.lists, rfl, hn, by simp⟩
      · simp only [markRef, touch_alive ha]
        split
        · rename_i hc
          refine ⟨mv h.lists .gcMarked a, moveTo_alive _ ha, nodup_mv hn, ?_⟩
          intro x l
          rw [mem_mv]
          by_cases hx : x = a
          · subst hx; simp [hc]
          · simp [hx]
        · rename_i hc
          refine ⟨h.lists, rfl, hn, ?_⟩
          intro x l
          by_cases hx : x = a
          · subst hx; simp only [true_and, hc, if_false]
          · simp [hx]
    obtain ⟨ls1, e1, hn1, m1⟩ := step
    obtain ⟨ls, e, hn2, m⟩ := ih { h with lists := ls1 } hn1 (fun w hw => hg w (by simp [hw]))
    refine ⟨ls, ?_, hn2, ?_⟩
    · rw [markRefs, List.foldl_cons, e1]
      exact e
    · intro x l
      rw [m, m1]
      by_cases h1 : Val.gc x ∈ vs <;> by_cases h2 : Val.gc x = v <;>
        by_cases h3 : h.gcMin ≤ h.gen x ∧ h.gen x ≠ h.gcGen <;> simp [h1, h2, h3]

theorem traverse_spec {h R uc K} (inv : Inv h R uc K) {a t} (hm : h.lists .gcMarked = a :: t) :
    ∃ ls, traverse h a t = { h with lists := ls, gen := upd h.gen a h.gcGen } ∧
      (∀ l, (ls l).Nodup) ∧
      ∀ x l, x ∈ ls l ↔ if x = a then
          l = (if h.interrupted then .unmarked h.gcFrame else .alloced h.gcFrame)
        else if .gc x ∈ h.fields a ∧ h.gcMin ≤ h.gen x ∧ h.gen x ≠ h.gcGen then l = .gcMarked
        else x ∈ h.lists l := by
  have ham : a ∈ h.lists .gcMarked := by rw [hm]; simp
  have hal : h.alive a = true := inv.pl.alive ham
  have hKa := inv.kMarked ham
  have hauc : a ∉ uc := by
    intro hu
    obtain ⟨d, _, hd⟩ := inv.ucAlloc hu
    exact absurd (inv.pl.disj ham hd) (by simp)
  have hnd := inv.pl.nodup .gcMarked
  rw [hm, List.nodup_cons] at hnd
  have e0 : touch (getMarked h t) a = { h with lists := upd h.lists .gcMarked t } :=
    touch_alive (h := getMarked h t) hal
  obtain ⟨ls, e, hn, m⟩ := markRefs_spec (h.fields a)
    { h with lists := upd h.lists .gcMarked t, gen := upd h.gen a h.gcGen }
    (by
      intro l
      show (upd h.lists .gcMarked t l).Nodup
      by_cases hc : l = .gcMarked
      · subst hc; rw [upd_same]; exact hnd.2
      · rw [upd_ne _ _ hc]; exact inv.pl.nodup l)
    (by
      intro v hv
      obtain ⟨h1, h2⟩ := inv.clean hal hauc v hv
      match v, h1, h2, hv with
      | .imm n, _, _, _ => exact .inl ⟨n, rfl⟩
      | .gc b, _, _, hv => exact .inr ⟨b, rfl, (inv.kLive (inv.kClosed hKa hv)).1⟩
      | .stk s, _, h2, _ => exact absurd rfl (h2 s)
      | .uninit, h1, _, _ => exact absurd rfl h1)
  refine ⟨mv ls (if h.interrupted then .unmarked h.gcFrame else .alloced h.gcFrame) a, ?_, nodup_mv hn, ?_⟩
  · unfold traverse
    simp only [e0]
    rw [e, moveTo_alive]
    exact hal
  · intro x l
    rw [mem_mv]
    by_cases hx : x = a
    · simp [hx]
    · simp only [hx, if_false]
      rw [m]
      simp only [upd_ne h.gen h.gcGen hx]
      split
      · rfl
      · by_cases hc : l = .gcMarked
        · subst hc
          rw [upd_same, hm]
          simp [hx]
        · rw [upd_ne _ _ hc]

theorem traverse_inv {h R uc K} (inv : Inv h R uc K) {a t} (hm : h.lists .gcMarked = a :: t) :
    Inv (traverse h a t) R uc K ∧ Ext h (traverse h a t) R := by
  obtain ⟨ls, e, hn, m⟩ := traverse_spec inv hm
  rw [e]
  have ham : a ∈ h.lists .gcMarked := by rw [hm]; simp
  have hal : h.alive a = true := inv.pl.alive ham
  have hKa := inv.kMarked ham
  have hns : NotStale h := by
    rcases inv.stale with h1 | ⟨_, h2, _⟩
    · exact h1
    · rw [h2] at ham; simp at ham
  have hgf := inv.gens1 _ inv.frameTop
  -- objects that are marked now
  have hMk : ∀ {x}, .gc x ∈ h.fields a ∧ h.gcMin ≤ h.gen x ∧ h.gen x ≠ h.gcGen →
      InGc h.lists x ∧ K x := by
    intro x hx
    refine ⟨?_, inv.kClosed hKa hx.1⟩
    rcases inv.kEdge hKa (.inl ham) hx.1 with h1 | h1 | h1
    · exact h1
    · exact absurd h1 hx.2.2
    · omega
  have hX : ∀ {l}, l = (if h.interrupted then LId.unmarked h.gcFrame else .alloced h.gcFrame) ↔
      (h.interrupted = true ∧ l = .unmarked h.gcFrame) ∨ (h.interrupted = false ∧ l = .alloced h.gcFrame) := by
    intro l; cases h.interrupted <;> simp
  have mAl : ∀ {x d}, x ∈ ls (.alloced d) ↔ x ∈ h.lists (.alloced d) ∨
      (x = a ∧ h.interrupted = false ∧ d = h.gcFrame) := by
    intro x d
    rw [m, hX]
    by_cases hx : x = a
    · subst hx
      have : x ∉ h.lists (.alloced d) := fun hc => absurd (inv.pl.disj ham hc) (by simp)
      simp [this]
    · simp only [hx, if_false, false_and, or_false]
      split
      · rename_i hc
        have := (hMk hc).1
        have : x ∉ h.lists (.alloced d) := by
          intro hd
          rcases this with h1 | h1 <;> exact absurd (inv.pl.disj h1 hd) (by simp)
        simp [this]
      · rfl
  have mUn : ∀ {x d}, x ∈ ls (.unmarked d) ↔ x ∈ h.lists (.unmarked d) ∨
      (x = a ∧ h.interrupted = true ∧ d = h.gcFrame) := by
    intro x d
    rw [m, hX]
    by_cases hx : x = a
    · subst hx
      have : x ∉ h.lists (.unmarked d) := fun hc => absurd (inv.pl.disj ham hc) (by simp)
      simp [this]
    · simp only [hx, if_false, false_and, or_false]
      split
      · rename_i hc
        have := (hMk hc).1
        have : x ∉ h.lists (.unmarked d) := by
          intro hd
          rcases this with h1 | h1 <;> exact absurd (inv.pl.disj h1 hd) (by simp)
        simp [this]
      · rfl
  have mMa : ∀ {x d}, x ∈ ls (.marked d) ↔ x ∈ h.lists (.marked d) := by
    intro x d
    rw [m, hX]
    by_cases hx : x = a
    · subst hx
      have : x ∉ h.lists (.marked d) := fun hc => absurd (inv.pl.disj ham hc) (by simp)
      simp [this]
    · simp only [hx, if_false]
      split
      · rename_i hc
        have := (hMk hc).1
        have : x ∉ h.lists (.marked d) := by
          intro hd
          rcases this with h1 | h1 <;> exact absurd (inv.pl.disj h1 hd) (by simp)
        simp [this]
      · rfl
  have mFr : ∀ {x}, x ∈ ls .gcFree ↔ x ∈ h.lists .gcFree := by
    intro x
    rw [m, hX]
    by_cases hx : x = a
    · subst hx
      have : x ∉ h.lists .gcFree := fun hc => absurd (inv.pl.disj ham hc) (by simp)
      simp [this]
    · simp only [hx, if_false]
      split
      · rename_i hc
        have := (hMk hc).1
        have : x ∉ h.lists .gcFree := by
          intro hd
          rcases this with h1 | h1 <;> exact absurd (inv.pl.disj h1 hd) (by simp)
        simp [this]
      · rfl
  have mGm : ∀ {x}, x ∈ ls .gcMarked ↔ x ≠ a ∧ (x ∈ h.lists .gcMarked ∨
      (.gc x ∈ h.fields a ∧ h.gcMin ≤ h.gen x ∧ h.gen x ≠ h.gcGen)) := by
    intro x
    rw [m, hX]
    by_cases hx : x = a
    · simp [hx]
    · simp only [hx, if_false, ne_eq, not_false_eq_true, true_and]
      split
      · rename_i hc; simp [hc]
      · rename_i hc; simp [hc]
  have mGu : ∀ {x}, x ∈ ls .gcUnmarked ↔ x ∈ h.lists .gcUnmarked ∧
      ¬ (.gc x ∈ h.fields a ∧ h.gcMin ≤ h.gen x ∧ h.gen x ≠ h.gcGen) := by
    intro x
    rw [m, hX]
    by_cases hx : x = a
    · subst hx
      have : x ∉ h.lists .gcUnmarked := fun hc => absurd (inv.pl.disj ham hc) (by simp)
      simp [this]
    · simp only [hx, if_false]
      split
      · rename_i hc; simp [hc]
      · rename_i hc; simp [hc]
  have hau : a ∉ h.lists .gcUnmarked := fun hc => absurd (inv.pl.disj ham hc) (by simp)
  have mInGc : ∀ {x}, InGc ls x ↔ x ≠ a ∧ InGc h.lists x := by
    intro x
    unfold InGc
    rw [mGm, mGu]
    constructor
    · rintro (⟨h1, h2 | h2⟩ | h2)
      · exact ⟨h1, .inl h2⟩
      · exact ⟨h1, (hMk h2).1⟩
      · exact ⟨fun hc => hau (hc ▸ h2.1), .inr h2.1⟩
    · rintro ⟨h1, h2 | h2⟩
      · exact .inl ⟨h1, .inl h2⟩
      · by_cases hc : (.gc x ∈ h.fields a ∧ h.gcMin ≤ h.gen x ∧ h.gen x ≠ h.gcGen)
        · exact .inl ⟨h1, .inr hc⟩
        · exact .inr ⟨h2, hc⟩
  have mOwn : ∀ {x d}, Own ls h.gcFrame x d ↔ Own h.lists h.gcFrame x d := by
    intro x d
    unfold Own
    rw [mAl, mUn, mMa, mInGc]
    by_cases hx : x = a
    · subst hx
      cases hi : h.interrupted
      · simp only [ne_eq, not_true_eq_false, false_and, and_false, or_false, true_and]
        simp only [InGc, ham, true_or, and_true]
        simp
        tauto
      · simp only [ne_eq, not_true_eq_false, false_and, and_false, or_false, true_and]
        simp only [InGc, ham, true_or, and_true]
        simp
    · simp [hx]
  have mVOwn : ∀ {v d}, VOwn ls h.gcFrame h.sframe v d ↔ VOwn h.lists h.gcFrame h.sframe v d := by
    intro v d
    cases v <;> simp only [VOwn]
    exact mOwn
  have mWh : Wh ls h.interrupted h.gcFrame = Wh h.lists h.interrupted h.gcFrame := by
    funext d x
    unfold Wh
    rw [mUn, mInGc]
    apply propext
    by_cases hx : x = a
    · subst hx
      simp only [InGc, ham, true_or, and_true, ne_eq, not_true_eq_false, and_false,
        or_false, true_and]
    · simp [hx]
  have mGr : Gr ls h.interrupted h.gcFrame h.save = Gr h.lists h.interrupted h.gcFrame h.save := by
    funext d x
    unfold Gr
    rw [mMa]
  have genNe : ∀ {x}, x ≠ a → upd h.gen a h.gcGen x = h.gen x := fun hx => upd_ne _ _ hx
  have aOwn : Own h.lists h.gcFrame a h.gcFrame := .inr (.inr (.inr ⟨rfl, .inl ham⟩))
  refine ⟨{
    pl := {
      nodup := hn
      disj := by
        intro l l' x h1 h2
        have h1 := (m _ _).mp h1
        have h2 := (m _ _).mp h2
        by_cases hx : x = a
        · simp only [hx, if_true] at h1 h2
          rw [h1, h2]
        · simp only [hx, if_false] at h1 h2
          split at h1
          · rename_i hc
            rw [if_pos hc] at h2
            rw [h1, h2]
          · rename_i hc
            rw [if_neg hc] at h2
            exact inv.pl.disj h1 h2
      alive := by
        intro l x h1
        have h1 := (m _ _).mp h1
        by_cases hx : x = a
        · rw [hx]; exact hal
        · simp only [hx, if_false] at h1
          split at h1
          · rename_i hc
            exact (inv.kLive (hMk hc).2).1
          · exact inv.pl.alive h1
      placed := by
        intro x hx
        obtain ⟨l, hl⟩ := inv.pl.placed x hx
        show ∃ l, x ∈ ls l
        by_cases hxa : x = a
        · exact ⟨_, (m _ _).mpr (by rw [if_pos hxa])⟩
        · by_cases hc : (.gc x ∈ h.fields a ∧ h.gcMin ≤ h.gen x ∧ h.gen x ≠ h.gcGen)
          · exact ⟨.gcMarked, (m _ _).mpr (by rw [if_neg hxa, if_pos hc])⟩
          · exact ⟨l, (m _ _).mpr (by rw [if_neg hxa, if_neg hc]; exact hl)⟩
      fresh := inv.pl.fresh
      book := inv.pl.book
      above := by
        intro d hd
        have h0 := inv.pl.above d hd
        have hdf : d ≠ h.gcFrame := fun hc => by
          have := inv.frameTop
          have hd : h.top < d := hd
          omega
        refine ⟨List.eq_nil_iff_forall_not_mem.mpr ?_, List.eq_nil_iff_forall_not_mem.mpr ?_,
          List.eq_nil_iff_forall_not_mem.mpr ?_⟩
        · intro x hx
          rcases mAl.mp hx with h1 | ⟨_, _, h1⟩
          · simp [h0.1] at h1
          · exact hdf h1
        · intro x hx
          have h1 := mMa.mp hx
          simp [h0.2.1] at h1
        · intro x hx
          rcases mUn.mp hx with h1 | ⟨_, _, h1⟩
          · simp [h0.2.2] at h1
          · exact hdf h1 }
    gens1 := inv.gens1
    gens2 := inv.gens2
    allocGen := by
      intro d x hx
      rcases mAl.mp hx with h1 | ⟨rfl, hi, rfl⟩
      · have : x ≠ a := fun hc => absurd (inv.pl.disj ham (hc ▸ h1)) (by simp)
        exact (genNe this).trans (inv.allocGen h1)
      · exact (upd_same _ _ _).trans (inv.nonint hi).2
    frameTop := inv.frameTop
    next := inv.next
    nonint := inv.nonint
    isint := inv.isint
    gcg := inv.gcg
    stale := .inl hns
    accK := inv.accK
    accUninit := inv.accUninit
    accStk := inv.accStk
    kClosed := inv.kClosed
    kLive := by
      intro x hx
      obtain ⟨h1, h2⟩ := inv.kLive hx
      exact ⟨h1, fun hc => h2 (mFr.mp hc)⟩
    kMarked := by
      intro x hx
      rcases (mGm.mp hx).2 with h1 | h1
      · exact inv.kMarked h1
      · exact (hMk h1).2
    kWhite := by
      intro x hk hx
      show Path h.fields (· ∈ ls .gcMarked) (· ∈ ls .gcUnmarked) x
      have hx' : x ∈ h.lists .gcUnmarked := (mGu.mp hx).1
      have hp := inv.kWhite hk hx'
      clear hk
      -- follow the path; the part after `a` starts at an object marked now
      have key : ∀ {y}, Path h.fields (· ∈ h.lists .gcMarked) (· ∈ h.lists .gcUnmarked) y →
          K y ∧ (y = a ∨ Path h.fields (· ∈ ls .gcMarked) (· ∈ ls .gcUnmarked) y) := by
        intro y hp
        induction hp with
        | @base y hy =>
          refine ⟨inv.kMarked hy, ?_⟩
          by_cases hya : y = a
          · exact .inl hya
          · exact .inr (.base (mGm.mpr ⟨hya, .inl hy⟩))
        | @step y z hp hz hw ih =>
          have hKz := inv.kClosed ih.1 hz
          refine ⟨hKz, ?_⟩
          have hza : z ≠ a := fun hc => hau (hc ▸ hw)
          rcases ih.2 with rfl | ih2
          · have hg := inv.kGen hKz (.inr hw)
            exact .inr (.base (mGm.mpr ⟨hza, .inr ⟨hz, hg.1, hg.2.2⟩⟩))
          · by_cases hc : (.gc z ∈ h.fields a ∧ h.gcMin ≤ h.gen z ∧ h.gen z ≠ h.gcGen)
            · exact .inr (.base (mGm.mpr ⟨hza, .inr hc⟩))
            · exact .inr (.step ih2 hz (mGu.mpr ⟨hw, hc⟩))
      rcases (key hp).2 with rfl | h1
      · exact absurd hx' hau
      · exact h1
    kGen := by
      intro x hk hg
      obtain ⟨hxa, hg⟩ := mInGc.mp hg
      show h.gcMin ≤ upd h.gen a h.gcGen x ∧ upd h.gen a h.gcGen x < h.gcMax ∧ upd h.gen a h.gcGen x ≠ h.gcGen
      rw [genNe hxa]
      exact inv.kGen hk hg
    kEdge := by
      intro x y hk hg hy
      obtain ⟨hxa, hg⟩ := mInGc.mp hg
      show InGc ls y ∨ upd h.gen a h.gcGen y = h.gcGen ∨ upd h.gen a h.gcGen y < h.gcMin
      by_cases hya : y = a
      · subst hya
        exact .inr (.inl (upd_same _ _ _))
      · rw [genNe hya, mInGc]
        rcases inv.kEdge hk hg hy with h1 | h1
        · exact .inl ⟨hya, h1⟩
        · exact .inr h1
    accGen := by
      intro x d ha ho
      have ho' := mOwn.mp ho
      show h.minGen d ≤ upd h.gen a h.gcGen x ∧ upd h.gen a h.gcGen x < h.maxGen d
      by_cases hxa : x = a
      · subst hxa
        rw [upd_same]
        have hd := Own.unique inv.pl ho' aOwn
        rw [hd]
        have := inv.gcg
        have := hns.1
        omega
      · rw [genNe hxa]
        exact inv.accGen ha ho'
    accNe := by
      intro x d ha ho
      show upd h.gen a h.gcGen x ≠ h.genF d
      have ho : x ∈ ls (.marked d) ∨ x ∈ ls (.unmarked d) := ho
      rw [mMa, mUn] at ho
      by_cases hxa : x = a
      · subst hxa
        rw [upd_same]
        rcases ho with h1 | h1 | ⟨_, hi, rfl⟩
        · exact absurd (inv.pl.disj ham h1) (by simp)
        · exact absurd (inv.pl.disj ham h1) (by simp)
        · have := hns.2 hi
          have := inv.gcg
          omega
      · rw [genNe hxa]
        refine inv.accNe ha ?_
        rcases ho with h1 | h1 | ⟨h1, _⟩
        · exact .inl h1
        · exact .inr h1
        · exact absurd h1 hxa
    rng := by
      intro x ha ho hg
      have ho := mOwn.mp ho
      show upd h.gen a h.gcGen x < h.gcMin ∨ upd h.gen a h.gcGen x = h.gcGen ∨ h.gcMax ≤ upd h.gen a h.gcGen x
      by_cases hxa : x = a
      · subst hxa
        exact .inr (.inl (upd_same _ _ _))
      · rw [genNe hxa]
        exact inv.rng ha ho (fun hc => hg (mInGc.mpr ⟨hxa, hc⟩))
    edgeDepth := fun ha he h1 h2 => inv.edgeDepth ha he (mVOwn.mp h1) (mVOwn.mp h2)
    rootDepth := fun hd hv h1 => inv.rootDepth hd hv (mVOwn.mp h1)
    markedRoot := fun hx => inv.markedRoot (mMa.mp hx)
    saveRoot := inv.saveRoot
    saveAt := by
      intro x hx
      show x ∈ ls .gcMarked ∨ x ∈ ls (.unmarked h.gcFrame)
      rw [mGm, mUn]
      by_cases hxa : x = a
      · cases hi : h.interrupted
        · have := (inv.nonint hi).1
          have hx : x ∈ h.save := hx
          rw [this] at hx
          simp at hx
        · exact .inr (.inr ⟨hxa, rfl, rfl⟩)
      · rcases inv.saveAt hx with h1 | h1
        · exact .inl ⟨hxa, .inl h1⟩
        · exact .inr (.inl h1)
    white := by
      intro d x hd ha hw
      have hw : Wh ls h.interrupted h.gcFrame d x := hw
      show Path h.fields (Gr ls h.interrupted h.gcFrame h.save d) (Wh ls h.interrupted h.gcFrame d) x
      rw [mWh] at hw ⊢
      rw [mGr]
      exact inv.white hd ha hw
    clean := inv.clean
    ucAlloc := by
      intro x hx
      obtain ⟨d, hd, hx⟩ := inv.ucAlloc hx
      exact ⟨d, hd, mAl.mpr (.inl hx)⟩
    ucStk := inv.ucStk
    stack := inv.stack
    stkLt := inv.stkLt
    noub := inv.noub }, ?_⟩
  exact ⟨rfl, rfl, rfl, rfl, rfl, rfl, rfl, rfl, rfl, rfl, Nat.le_refl _, fun _ _ => rfl, fun _ _ => rfl,
    fun _ _ h => h, fun h => mAl.mpr (.inl h), fun _ h => mOwn.mpr h, fun h => h⟩

theorem resurrect_spec (h : Heap) (sv : List Addr) (hs : ∀ a ∈ sv, h.alive a = true)
    (hn : ∀ l, (h.lists l).Nodup) :
    ∃ ls, sv.foldl (fun h a => moveTo h (.marked h.gcFrame) a) h = { h with lists := ls } ∧
      (∀ l, (ls l).Nodup) ∧
      ∀ x l, x ∈ ls l ↔ if x ∈ sv then l = .marked h.gcFrame else x ∈ h.lists l := by
  induction sv generalizing h with
  | nil => exact ⟨h.lists, rfl, hn, by simp⟩
  | cons a sv ih =>
    obtain ⟨ls, e, hn', m⟩ := ih { h with lists := mv h.lists (.marked h.gcFrame) a }
      (fun b hb => hs b (by simp [hb])) (nodup_mv hn)
    refine ⟨ls, ?_, hn', ?_⟩
    · rw [List.foldl_cons, moveTo_alive _ (hs a (by simp)), e]
    · intro x l
      rw [m, mem_mv]
      by_cases h1 : x ∈ sv <;> by_cases h2 : x = a <;> simp [h1, h2]

/-- Once nothing is left to traverse, whatever is accessible and white can be reached from a marked
or saved object through white objects of the same frame. -/
theorem plainPath {h R uc K} (inv : Inv h R uc K) (hm : h.lists .gcMarked = []) {d a}
    (hd : d ≤ h.top) (ha : Acc h R (.gc a)) (hu : a ∈ h.lists (.unmarked d)) :
    Path h.fields (fun x => x ∈ h.lists (.marked d) ∨ (d = h.gcFrame ∧ x ∈ h.save))
      (fun x => x ∈ h.lists (.unmarked d) ∧ x ∉ h.save) a := by
  have hp := inv.white hd ha (.inl hu)
  have key : ∀ {y}, Path h.fields (Gr h.lists h.interrupted h.gcFrame h.save d)
      (Wh h.lists h.interrupted h.gcFrame d) y → Acc h R (.gc y) ∧
      Path h.fields (fun x => x ∈ h.lists (.marked d) ∨ (d = h.gcFrame ∧ x ∈ h.save))
      (fun x => x ∈ h.lists (.unmarked d) ∧ x ∉ h.save) y := by
    intro y hp
    induction hp with
    | @base y hy =>
      rcases hy with hy | ⟨_, hy1, hy2⟩
      · exact ⟨.root ⟨d, hd, inv.markedRoot hy⟩, .base (.inl hy)⟩
      · exact ⟨.root ⟨d, hd, hy1 ▸ inv.saveRoot hy2⟩, .base (.inr ⟨hy1, hy2⟩)⟩
    | @step y z hp hz hw ih =>
      have hz' : Acc h R (.gc z) := .step ih.1 ⟨hz, by simp⟩
      refine ⟨hz', ?_⟩
      rcases hw with hw | ⟨_, _, hw⟩
      · by_cases hc : z ∈ h.save
        · refine .base (.inr ⟨?_, hc⟩)
          rcases inv.saveAt hc with h1 | h1
          · rw [hm] at h1; simp at h1
          · have := inv.pl.disj h1 hw
            simpa using this.symm
        · exact .step ih.2 hz ⟨hw, hc⟩
      · rcases hw with hw | hw
        · rw [hm] at hw; simp at hw
        · exact absurd hw (inv.no_white hm (inv.accK hz'))
  exact (key hp).2

theorem endCycle_none_inv {h R uc K} (inv : Inv h R uc K) (hm : h.lists .gcMarked = [])
    (hnx : h.gcNext = none) : Inv (endCycle h) R uc K ∧ Ext h (endCycle h) R := by
  have hi : h.interrupted = false := by
    cases hi : h.interrupted
    · rfl
    · exact absurd hnx (inv.isint hi)
  have hsv := (inv.nonint hi).1
  have e : endCycle h = moveAll h .gcFree .gcUnmarked := by
    unfold endCycle resurrect
    have : (moveAll h .gcFree .gcUnmarked).save = [] := hsv
    simp only [this, List.foldl_nil]
    have : (moveAll h .gcFree .gcUnmarked).gcNext = none := hnx
    rw [this]
  rw [e]
  unfold moveAll
  have mem : ∀ {x l}, x ∈ upd (upd h.lists .gcFree (h.lists .gcUnmarked ++ h.lists .gcFree)) .gcUnmarked [] l ↔
      l ≠ .gcUnmarked ∧ (x ∈ h.lists l ∨ (l = .gcFree ∧ x ∈ h.lists .gcUnmarked)) :=
    mem_moveAll (by simp)
  have eqs : ∀ {l}, l ≠ .gcUnmarked → l ≠ .gcFree →
      upd (upd h.lists .gcFree (h.lists .gcUnmarked ++ h.lists .gcFree)) .gcUnmarked [] l = h.lists l := by
    intro l h1 h2
    rw [upd_ne _ _ h1, upd_ne _ _ h2]
  generalize hls : upd (upd h.lists .gcFree (h.lists .gcUnmarked ++ h.lists .gcFree)) .gcUnmarked [] = ls at *
  have hgm : ls .gcMarked = [] := (eqs (by simp) (by simp)).trans hm
  have hgu : ∀ x, x ∉ ls .gcUnmarked := by intro x hx; exact (mem.mp hx).1 rfl
  have hNoGc : ∀ x, ¬ InGc ls x := by
    rintro x (h1 | h1)
    · rw [hgm] at h1; simp at h1
    · exact hgu x h1
  have hNoK : ∀ {x}, K x → ¬ InGc h.lists x := by
    rintro x hk (h1 | h1)
    · rw [hm] at h1; simp at h1
    · exact inv.no_white hm hk h1
  have hOwn : ∀ {x d}, Own ls h.gcFrame x d → Own h.lists h.gcFrame x d := by
    intro x d ho
    unfold Own at ho ⊢
    rw [eqs (l := .alloced d) (by simp) (by simp), eqs (l := .marked d) (by simp) (by simp),
      eqs (l := .unmarked d) (by simp) (by simp)] at ho
    rcases ho with h1 | h1 | h1 | ⟨_, h1⟩
    · exact .inl h1
    · exact .inr (.inl h1)
    · exact .inr (.inr (.inl h1))
    · exact absurd h1 (hNoGc x)
  have hVOwn : ∀ {v d}, VOwn ls h.gcFrame h.sframe v d → VOwn h.lists h.gcFrame h.sframe v d := by
    intro v d ho
    cases v
    · exact ho
    · exact hOwn ho
    · exact ho
    · exact ho
  refine ⟨{
    pl := {
      nodup := by
        intro l
        show (ls l).Nodup
        rw [← hls]
        by_cases h1 : l = .gcUnmarked
        · rw [h1, upd_same]; simp
        · rw [upd_ne _ _ h1]
          by_cases h2 : l = .gcFree
          · rw [h2, upd_same, List.nodup_append]
            refine ⟨inv.pl.nodup _, inv.pl.nodup _, ?_⟩
            intro a ha b hb hab
            exact absurd (inv.pl.disj ha (hab ▸ hb)) (by simp)
          · rw [upd_ne _ _ h2]; exact inv.pl.nodup _
      disj := by
        intro l l' x h1 h2
        have h1 := mem.mp h1
        have h2 := mem.mp h2
        rcases h1 with ⟨n1, h1 | ⟨e1, h1⟩⟩ <;> rcases h2 with ⟨n2, h2 | ⟨e2, h2⟩⟩
        · exact inv.pl.disj h1 h2
        · exact absurd (inv.pl.disj h1 h2) n1
        · exact absurd (inv.pl.disj h2 h1) n2
        · rw [e1, e2]
      alive := by
        intro l x h1
        rcases mem.mp h1 with ⟨_, h1 | ⟨_, h1⟩⟩ <;> exact inv.pl.alive h1
      placed := by
        intro x hx
        obtain ⟨l, hl⟩ := inv.pl.placed x hx
        show ∃ l, x ∈ ls l
        by_cases hc : l = .gcUnmarked
        · exact ⟨.gcFree, mem.mpr ⟨by simp, .inr ⟨rfl, hc ▸ hl⟩⟩⟩
        · exact ⟨l, mem.mpr ⟨hc, .inl hl⟩⟩
      fresh := inv.pl.fresh
      book := inv.pl.book
      above := by
        intro d hd
        have := inv.pl.above d hd
        exact ⟨(eqs (by simp) (by simp)).trans this.1, (eqs (by simp) (by simp)).trans this.2.1,
          (eqs (by simp) (by simp)).trans this.2.2⟩ }
    gens1 := inv.gens1
    gens2 := inv.gens2
    allocGen := by
      intro d x hx
      have hx : x ∈ ls (.alloced d) := hx
      rw [eqs (by simp) (by simp)] at hx
      exact inv.allocGen hx
    frameTop := inv.frameTop
    next := inv.next
    nonint := inv.nonint
    isint := inv.isint
    gcg := inv.gcg
    stale := by
      rcases inv.stale with h1 | ⟨h1, _, h3⟩
      · exact .inl h1
      · exact .inr ⟨h1, hgm, h3⟩
    accK := inv.accK
    accUninit := inv.accUninit
    accStk := inv.accStk
    kClosed := inv.kClosed
    kLive := by
      intro x hx
      obtain ⟨h1, h2⟩ := inv.kLive hx
      refine ⟨h1, ?_⟩
      intro hc
      rcases mem.mp hc with ⟨_, hc | ⟨_, hc⟩⟩
      · exact h2 hc
      · exact hNoK hx (.inr hc)
    kMarked := by
      intro x hx
      exact absurd (Or.inl hx) (hNoGc x)
    kWhite := fun _ hx => absurd (Or.inr hx) (hNoGc _)
    kGen := fun _ hx => absurd hx (hNoGc _)
    kEdge := fun _ hx => absurd hx (hNoGc _)
    accGen := fun ha ho => inv.accGen ha (hOwn ho)
    accNe := by
      intro x d ha ho
      have ho : x ∈ ls (.marked d) ∨ x ∈ ls (.unmarked d) := ho
      rw [eqs (l := .marked d) (by simp) (by simp), eqs (l := .unmarked d) (by simp) (by simp)] at ho
      exact inv.accNe ha ho
    rng := fun ha ho _ => inv.rng ha (hOwn ho) (hNoK (inv.accK ha))
    edgeDepth := fun ha he h1 h2 => inv.edgeDepth ha he (hVOwn h1) (hVOwn h2)
    rootDepth := fun hd hv h1 => inv.rootDepth hd hv (hVOwn h1)
    markedRoot := by
      intro x d hx
      have hx : x ∈ ls (.marked d) := hx
      rw [eqs (by simp) (by simp)] at hx
      exact inv.markedRoot hx
    saveRoot := inv.saveRoot
    saveAt := by
      intro x hx
      have hx : x ∈ h.save := hx
      rw [hsv] at hx
      simp at hx
    white := by
      intro d x hd ha hw
      have hw : Wh ls h.interrupted h.gcFrame d x := hw
      show Path h.fields (Gr ls h.interrupted h.gcFrame h.save d) (Wh ls h.interrupted h.gcFrame d) x
      have hu : x ∈ h.lists (.unmarked d) := by
        rcases hw with hw | ⟨_, _, hw⟩
        · rwa [eqs (by simp) (by simp)] at hw
        · exact absurd hw (hNoGc x)
      refine Path.mono ?_ ?_ (fun _ _ => rfl) (plainPath inv hm hd ha hu)
      · rintro y (hy | ⟨_, hy⟩)
        · exact .base (.inl (by rw [eqs (by simp) (by simp)]; exact hy))
        · rw [hsv] at hy; simp at hy
      · rintro y ⟨hy, _⟩
        exact .inr (.inl (by rw [eqs (by simp) (by simp)]; exact hy))
    clean := inv.clean
    ucAlloc := by
      intro x hx
      obtain ⟨d, hd, hx⟩ := inv.ucAlloc hx
      refine ⟨d, hd, ?_⟩
      show x ∈ ls (.alloced d)
      rw [eqs (by simp) (by simp)]
      exact hx
    ucStk := inv.ucStk
    stack := inv.stack
    stkLt := inv.stkLt
    noub := inv.noub }, ?_⟩
  refine ⟨rfl, rfl, rfl, rfl, rfl, rfl, rfl, rfl, rfl, rfl, Nat.le_refl _, fun _ _ => rfl, fun _ _ => rfl,
    fun _ _ h => h, fun {d x} hx => ?_, fun {x d} ha ho => ?_, fun h => h⟩
  · show x ∈ ls (.alloced d)
    rw [eqs (by simp) (by simp)]; exact hx
  · show Own ls h.gcFrame x d
    unfold Own
    rw [eqs (l := .alloced d) (by simp) (by simp), eqs (l := .marked d) (by simp) (by simp),
      eqs (l := .unmarked d) (by simp) (by simp)]
    rcases ho with h1 | h1 | h1 | ⟨_, h1⟩
    · exact .inl h1
    · exact .inr (.inl h1)
    · exact .inr (.inr (.inl h1))
    · exact absurd h1 (hNoK (inv.accK ha))

/-- The heap when a collection of frame `n` starts. -/
def cycleOn (h : Heap) (n : Nat) (ls : Lists) : Heap :=
  { h with lists := ls, gcFrame := n, gcNext := if n = h.top then none else some (n + 1),
           gcMin := h.minGen n, gcGen := h.genF n, gcMax := h.maxGen n,
           interrupted := false, save := [] }

theorem endCycle_some_spec {h R uc K} (inv : Inv h R uc K) (hm : h.lists .gcMarked = []) {n}
    (hnx : h.gcNext = some n) :
    ∃ ls, endCycle h = cycleOn h n ls ∧
      (∀ l, (ls l).Nodup) ∧
      (∀ x l, x ∈ ls l ↔ match l with
        | .alloced d => x ∈ h.lists (.alloced d)
        | .marked d => d ≠ n ∧ (x ∈ h.lists (.marked d) ∨ (d = h.gcFrame ∧ x ∈ h.save))
        | .unmarked d => d ≠ n ∧ x ∈ h.lists (.unmarked d) ∧ x ∉ h.save
        | .gcMarked => x ∈ h.lists (.marked n) ∨ (n = h.gcFrame ∧ x ∈ h.save)
        | .gcUnmarked => x ∈ h.lists (.unmarked n) ∧ x ∉ h.save
        | .gcFree => x ∈ h.lists .gcFree ∨ x ∈ h.lists .gcUnmarked) := by
  have hsave : ∀ {x}, x ∈ h.save → x ∈ h.lists (.unmarked h.gcFrame) := by
    intro x hx
    rcases inv.saveAt hx with h1 | h1
    · rw [hm] at h1; simp at h1
    · exact h1
  have nd1 : ∀ l, ((moveAll h .gcFree .gcUnmarked).lists l).Nodup := by
    intro l
    show (upd (upd h.lists .gcFree (h.lists .gcUnmarked ++ h.lists .gcFree)) .gcUnmarked [] l).Nodup
    by_cases h1 : l = .gcUnmarked
    · rw [h1, upd_same]; simp
    · rw [upd_ne _ _ h1]
      by_cases h2 : l = .gcFree
      · rw [h2, upd_same, List.nodup_append]
        refine ⟨inv.pl.nodup _, inv.pl.nodup _, ?_⟩
        intro a ha b hb hab
        exact absurd (inv.pl.disj ha (hab ▸ hb)) (by simp)
      · rw [upd_ne _ _ h2]; exact inv.pl.nodup _
  have m1 : ∀ {x l}, x ∈ (moveAll h .gcFree .gcUnmarked).lists l ↔
      l ≠ .gcUnmarked ∧ (x ∈ h.lists l ∨ (l = .gcFree ∧ x ∈ h.lists .gcUnmarked)) :=
    mem_moveAll (by simp)
  obtain ⟨ls2, e2, nd2, m2⟩ := resurrect_spec (moveAll h .gcFree .gcUnmarked) h.save
    (fun a ha => inv.pl.alive (hsave ha)) nd1
  have m2' : ∀ x l, x ∈ ls2 l ↔ if x ∈ h.save then l = .marked h.gcFrame
      else l ≠ .gcUnmarked ∧ (x ∈ h.lists l ∨ (l = .gcFree ∧ x ∈ h.lists .gcUnmarked)) := by
    intro x l
    rw [m2, m1]
    rfl
  have er : endCycle h = startCycle { h with lists := ls2 } n := by
    unfold endCycle
    have : resurrect (moveAll h .gcFree .gcUnmarked) = { h with lists := ls2 } := by
      unfold resurrect
      exact e2
    simp only [this, hnx]
  rw [er]
  have m3 : ∀ {x l}, x ∈ upd (upd ls2 .gcMarked (ls2 (.marked n) ++ ls2 .gcMarked)) (.marked n) [] l ↔
      l ≠ .marked n ∧ (x ∈ ls2 l ∨ (l = .gcMarked ∧ x ∈ ls2 (.marked n))) := mem_moveAll (by simp)
  generalize h3 : upd (upd ls2 .gcMarked (ls2 (.marked n) ++ ls2 .gcMarked)) (.marked n) [] = ls3 at *
  have m4 : ∀ {x l}, x ∈ upd (upd ls3 .gcUnmarked (ls3 (.unmarked n) ++ ls3 .gcUnmarked)) (.unmarked n) [] l ↔
      l ≠ .unmarked n ∧ (x ∈ ls3 l ∨ (l = .gcUnmarked ∧ x ∈ ls3 (.unmarked n))) := mem_moveAll (by simp)
  have hm' : ∀ x, x ∉ h.lists .gcMarked := by intro x; rw [hm]; simp
  have hd : ∀ {l x}, x ∈ h.save → x ∈ h.lists l → l = .unmarked h.gcFrame :=
    fun hs hx => inv.pl.disj hx (hsave hs)
  refine ⟨upd (upd ls3 .gcUnmarked (ls3 (.unmarked n) ++ ls3 .gcUnmarked)) (.unmarked n) [], ?_, ?_, ?_⟩
  · subst h3
    rfl
  · have dj2 : ∀ {l l' x}, x ∈ ls2 l → x ∈ ls2 l' → l = l' := by
      intro l l' x h1 h2
      rw [m2'] at h1 h2
      split at h1
      · rename_i hc
        rw [if_pos hc] at h2
        rw [h1, h2]
      · rename_i hc
        rw [if_neg hc] at h2
        rcases h1 with ⟨n1, h1 | ⟨e1, h1⟩⟩ <;> rcases h2 with ⟨n2, h2 | ⟨e2, h2⟩⟩
        · exact inv.pl.disj h1 h2
        · exact absurd (inv.pl.disj h1 h2) n1
        · exact absurd (inv.pl.disj h2 h1) n2
        · rw [e1, e2]
    have nd3 : ∀ l, (ls3 l).Nodup := by
      intro l
      rw [← h3]
      by_cases h1 : l = .marked n
      · rw [h1, upd_same]; simp
      · rw [upd_ne _ _ h1]
        by_cases h2 : l = .gcMarked
        · rw [h2, upd_same, List.nodup_append]
          refine ⟨nd2 _, nd2 _, ?_⟩
          intro a ha b hb hab
          exact absurd (dj2 ha (hab ▸ hb)) (by simp)
        · rw [upd_ne _ _ h2]; exact nd2 _
    have dj3 : ∀ {x}, x ∈ ls3 (.unmarked n) → x ∉ ls3 .gcUnmarked := by
      intro x h1 h2
      rw [m3] at h1 h2
      rcases h1 with ⟨_, h1 | ⟨h1, _⟩⟩
      · rcases h2 with ⟨_, h2 | ⟨h2, _⟩⟩
        · exact absurd (dj2 h1 h2) (by simp)
        · simp at h2
      · simp at h1
    intro l
    by_cases h1 : l = .unmarked n
    · rw [h1, upd_same]; simp
    · rw [upd_ne _ _ h1]
      by_cases h2 : l = .gcUnmarked
      · rw [h2, upd_same, List.nodup_append]
        refine ⟨nd3 _, nd3 _, ?_⟩
        intro a ha b hb hab
        exact dj3 ha (hab ▸ hb)
      · rw [upd_ne _ _ h2]; exact nd3 _
  · intro x l
    rw [m4, m3, m3, m2', m2', m2']
    have hd' : ∀ {l}, l ≠ .unmarked h.gcFrame → x ∈ h.save → x ∉ h.lists l := fun h1 h2 h3 => h1 (hd h2 h3)
    cases l with
    | alloced d =>
      by_cases hs : x ∈ h.save
      · simp [hs, hd' (l := .alloced d) (by simp) hs]
      · simp [hs]
    | marked d =>
      by_cases hs : x ∈ h.save
      · simp [hs, hd' (l := .marked d) (by simp) hs]
      · simp [hs]
    | unmarked d =>
      by_cases hs : x ∈ h.save
      · simp [hs]
      · simp [hs]
    | gcMarked =>
      by_cases hs : x ∈ h.save
      · simp [hs, hd' (l := .marked n) (by simp) hs]
      · simp [hs, hm' x]
    | gcUnmarked =>
      by_cases hs : x ∈ h.save
      · simp [hs]
      · simp [hs]
    | gcFree =>
      by_cases hs : x ∈ h.save
      · simp [hs, hd' (l := .gcFree) (by simp) hs, hd' (l := .gcUnmarked) (by simp) hs]
      · simp [hs]

/-- Where an object of list `l` is after the end of a cycle; `s`: it is saved. -/
def newLid (n : Nat) (s : Bool) : LId → LId
  | .alloced d => .alloced d
  | .marked d => if d = n then .gcMarked else .marked d
  | .unmarked d =>
    if s then (if d = n then .gcMarked else .marked d) else (if d = n then .gcUnmarked else .unmarked d)
  | .gcMarked => .gcMarked
  | .gcUnmarked => .gcFree
  | .gcFree => .gcFree

theorem endCycle_some_inv {h R uc K} (inv : Inv h R uc K) (hm : h.lists .gcMarked = []) {n}
    (hnx : h.gcNext = some n) :
    Inv (endCycle h) R uc (fun a => Acc h R (.gc a)) ∧ Ext h (endCycle h) R := by
  obtain ⟨ls, e, hn, m⟩ := endCycle_some_spec inv hm hnx
  rw [e]
  obtain ⟨hn1, hn2⟩ := inv.next n hnx
  have hsave : ∀ {x}, x ∈ h.save → x ∈ h.lists (.unmarked h.gcFrame) := by
    intro x hx
    rcases inv.saveAt hx with h1 | h1
    · rw [hm] at h1; simp at h1
    · exact h1
  have mAl : ∀ {x d}, x ∈ ls (.alloced d) ↔ x ∈ h.lists (.alloced d) := fun {x d} => m x _
  have mMa : ∀ {x d}, x ∈ ls (.marked d) ↔
      d ≠ n ∧ (x ∈ h.lists (.marked d) ∨ (d = h.gcFrame ∧ x ∈ h.save)) := fun {x d} => m x _
  have mUn : ∀ {x d}, x ∈ ls (.unmarked d) ↔ d ≠ n ∧ x ∈ h.lists (.unmarked d) ∧ x ∉ h.save :=
    fun {x d} => m x _
  have mGm : ∀ {x}, x ∈ ls .gcMarked ↔ x ∈ h.lists (.marked n) ∨ (n = h.gcFrame ∧ x ∈ h.save) :=
    fun {x} => m x _
  have mGu : ∀ {x}, x ∈ ls .gcUnmarked ↔ x ∈ h.lists (.unmarked n) ∧ x ∉ h.save := fun {x} => m x _
  have mFr : ∀ {x}, x ∈ ls .gcFree ↔ x ∈ h.lists .gcFree ∨ x ∈ h.lists .gcUnmarked := fun {x} => m x _
  -- where an object was
  have orig : ∀ {x l}, x ∈ ls l → ∃ l', x ∈ h.lists l' ∧ l = newLid n (decide (x ∈ h.save)) l' := by
    intro x l hx
    cases l with
    | alloced d => exact ⟨_, mAl.mp hx, rfl⟩
    | marked d =>
      obtain ⟨hd, h1 | h1⟩ := mMa.mp hx
      · exact ⟨_, h1, by simp [newLid, hd]⟩
      · exact ⟨_, hsave h1.2, by simp [newLid, h1, h1.1 ▸ hd]⟩
    | unmarked d =>
      obtain ⟨hd, h1, h2⟩ := mUn.mp hx
      exact ⟨_, h1, by simp [newLid, hd, h2]⟩
    | gcMarked =>
      rcases mGm.mp hx with h1 | h1
      · exact ⟨_, h1, by simp [newLid]⟩
      · exact ⟨_, hsave h1.2, by simp [newLid, h1]⟩
    | gcUnmarked => exact ⟨_, (mGu.mp hx).1, by simp [newLid, (mGu.mp hx).2]⟩
    | gcFree =>
      rcases mFr.mp hx with h1 | h1
      · exact ⟨_, h1, rfl⟩
      · exact ⟨_, h1, rfl⟩
  have hInGc : ∀ {x}, InGc ls x ↔ x ∈ h.lists (.marked n) ∨ x ∈ h.lists (.unmarked n) := by
    intro x
    unfold InGc
    rw [mGm, mGu]
    by_cases hs : x ∈ h.save
    · have h1 := hsave hs
      by_cases hc : n = h.gcFrame
      · simp [hs, hc, h1]
      · have : x ∉ h.lists (.unmarked n) := by
          intro h2
          have := inv.pl.disj h1 h2
          simp at this
          exact hc this.symm
        simp [hs, hc, this]
    · simp [hs]
  have hOwn : ∀ {x d}, Own ls n x d → Own h.lists h.gcFrame x d := by
    intro x d ho
    rcases ho with h1 | h1 | h1 | ⟨hd, h1⟩
    · exact .inl (mAl.mp h1)
    · rcases mMa.mp h1 with ⟨_, h1 | ⟨h1, h2⟩⟩
      · exact .inr (.inl h1)
      · exact .inr (.inr (.inl (h1 ▸ hsave h2)))
    · exact .inr (.inr (.inl (mUn.mp h1).2.1))
    · subst hd
      rcases hInGc.mp h1 with h1 | h1
      · exact .inr (.inl h1)
      · exact .inr (.inr (.inl h1))
  have hVOwn : ∀ {v d}, VOwn ls n h.sframe v d → VOwn h.lists h.gcFrame h.sframe v d := by
    intro v d ho
    cases v
    · exact ho
    · exact hOwn ho
    · exact ho
    · exact ho
  have accNoGc : ∀ {x}, Acc h R (.gc x) → ¬ InGc h.lists x := by
    rintro x hx (h1 | h1)
    · rw [hm] at h1; simp at h1
    · exact inv.no_white hm (inv.accK hx) h1
  have hgn := inv.gens1 n hn2
  have hGM : ∀ {x d}, d ≤ h.top → x ∈ h.lists (.marked d) ∨ (d = h.gcFrame ∧ x ∈ h.save) → Acc h R (.gc x) := by
    rintro x d hd (h1 | ⟨h1, h2⟩)
    · exact .root ⟨d, hd, inv.markedRoot h1⟩
    · exact .root ⟨d, hd, h1 ▸ inv.saveRoot h2⟩
  refine ⟨{
    pl := {
      nodup := hn
      disj := by
        intro l l' x h1 h2
        obtain ⟨k, h1, e1⟩ := orig h1
        obtain ⟨k', h2, e2⟩ := orig h2
        rw [e1, e2, inv.pl.disj h1 h2]
      alive := by
        intro l x h1
        obtain ⟨l', h1, _⟩ := orig h1
        exact inv.pl.alive h1
      placed := by
        intro x hx
        obtain ⟨l, hl⟩ := inv.pl.placed x hx
        show ∃ l, x ∈ ls l
        cases l with
        | alloced d => exact ⟨_, mAl.mpr hl⟩
        | marked d =>
          by_cases hc : d = n
          · exact ⟨.gcMarked, mGm.mpr (.inl (hc ▸ hl))⟩
          · exact ⟨_, mMa.mpr ⟨hc, .inl hl⟩⟩
        | unmarked d =>
          by_cases hs : x ∈ h.save
          · have hdf : d = h.gcFrame := by simpa using inv.pl.disj hl (hsave hs)
            by_cases hc : d = n
            · exact ⟨.gcMarked, mGm.mpr (.inr ⟨hc ▸ hdf, hs⟩)⟩
            · exact ⟨.marked d, mMa.mpr ⟨hc, .inr ⟨hdf, hs⟩⟩⟩
          · by_cases hc : d = n
            · exact ⟨.gcUnmarked, mGu.mpr ⟨hc ▸ hl, hs⟩⟩
            · exact ⟨.unmarked d, mUn.mpr ⟨hc, hl, hs⟩⟩
        | gcMarked => rw [hm] at hl; simp at hl
        | gcUnmarked => exact ⟨.gcFree, mFr.mpr (.inr hl)⟩
        | gcFree => exact ⟨.gcFree, mFr.mpr (.inl hl)⟩
      fresh := inv.pl.fresh
      book := inv.pl.book
      above := by
        intro d hd
        have h0 := inv.pl.above d hd
        have hd : h.top < d := hd
        have hft := inv.frameTop
        refine ⟨List.eq_nil_iff_forall_not_mem.mpr ?_, List.eq_nil_iff_forall_not_mem.mpr ?_,
          List.eq_nil_iff_forall_not_mem.mpr ?_⟩
        · intro x hx
          have := mAl.mp hx
          simp [h0.1] at this
        · intro x hx
          rcases mMa.mp hx with ⟨_, h1 | ⟨h1, _⟩⟩
          · simp [h0.2.1] at h1
          · omega
        · intro x hx
          have := (mUn.mp hx).2.1
          simp [h0.2.2] at this }
    gens1 := inv.gens1
    gens2 := inv.gens2
    allocGen := fun hx => inv.allocGen (mAl.mp hx)
    frameTop := hn2
    next := by
      intro k hk
      have hk : (if n = h.top then none else some (n + 1)) = some k := hk
      show n ≤ k ∧ k ≤ h.top
      split at hk
      · cases hk
      · cases hk
        omega
    nonint := fun _ => ⟨rfl, rfl⟩
    isint := fun hc => by cases hc
    gcg := ⟨hgn.1, hgn.2, Nat.le_refl _⟩
    stale := .inl ⟨Nat.le_refl _, fun hc => by cases hc⟩
    accK := fun ha => ha
    accUninit := inv.accUninit
    accStk := inv.accStk
    kClosed := fun ha hb => .step ha ⟨hb, by simp⟩
    kLive := by
      intro x hx
      obtain ⟨h1, h2⟩ := inv.kLive (inv.accK hx)
      refine ⟨h1, fun hc => ?_⟩
      rcases mFr.mp hc with hc | hc
      · exact h2 hc
      · exact accNoGc hx (.inr hc)
    kMarked := fun hx => hGM hn2 (mGm.mp hx)
    kWhite := by
      intro x hk hx
      have hx := mGu.mp hx
      refine Path.mono ?_ ?_ (fun _ _ => rfl) (plainPath inv hm hn2 hk hx.1)
      · intro y hy
        exact .base (mGm.mpr hy)
      · intro y hy
        exact .inr (mGu.mpr hy)
    kGen := by
      intro x hk hx
      have hx' := hInGc.mp hx
      have h1 := inv.accGen (d := n) hk (by
        rcases hx' with h1 | h1
        · exact .inr (.inl h1)
        · exact .inr (.inr (.inl h1)))
      exact ⟨h1.1, h1.2, inv.accNe hk hx'⟩
    kEdge := by
      intro x y hk hx hy
      have hx' := hInGc.mp hx
      have hxo : Own h.lists h.gcFrame x n := by
        rcases hx' with h1 | h1
        · exact .inr (.inl h1)
        · exact .inr (.inr (.inl h1))
      have hyA : Acc h R (.gc y) := .step hk ⟨hy, by simp⟩
      obtain ⟨e', he', hyo⟩ := inv.hasOwn (inv.accK hyA)
      have hle : e' ≤ n := inv.edgeDepth (v := .gc x) (w := .gc y) hk ⟨hy, by simp⟩ hxo hyo
      show InGc ls y ∨ h.gen y = h.genF n ∨ h.gen y < h.minGen n
      by_cases hc : e' = n
      · subst hc
        rcases hyo with h1 | h1 | h1 | ⟨_, h1⟩
        · exact .inr (.inl (inv.allocGen h1))
        · exact .inl (hInGc.mpr (.inl h1))
        · exact .inl (hInGc.mpr (.inr h1))
        · exact absurd h1 (accNoGc hyA)
      · have h1 := (inv.accGen hyA hyo).2
        have h2 := inv.chain (d := e') (e := n) (by omega) hn2
        exact .inr (.inr (by omega))
    accGen := fun ha ho => inv.accGen ha (hOwn ho)
    accNe := by
      intro x d ha ho
      refine inv.accNe ha ?_
      rcases ho with h1 | h1
      · rcases (mMa.mp h1).2 with h1 | ⟨h1, h2⟩
        · exact .inl h1
        · exact .inr (h1 ▸ hsave h2)
      · exact .inr (mUn.mp h1).2.1
    rng := by
      intro x ha ho hg
      show h.gen x < h.minGen n ∨ h.gen x = h.genF n ∨ h.maxGen n ≤ h.gen x
      have hg : ¬ InGc ls x := hg
      rw [hInGc] at hg
      rcases hOwn ho with h1 | h1 | h1 | ⟨_, h1⟩
      · exact .inr (.inl (inv.allocGen h1))
      · exact absurd (Or.inl h1) hg
      · exact absurd (Or.inr h1) hg
      · exact absurd h1 (accNoGc ha)
    edgeDepth := fun ha he h1 h2 => inv.edgeDepth ha he (hVOwn h1) (hVOwn h2)
    rootDepth := fun hd hv h1 => inv.rootDepth hd hv (hVOwn h1)
    markedRoot := by
      intro x d hx
      rcases (mMa.mp hx).2 with h1 | ⟨h1, h2⟩
      · exact inv.markedRoot h1
      · exact h1 ▸ inv.saveRoot h2
    saveRoot := fun hx => by simp [cycleOn] at hx
    saveAt := fun hx => by simp [cycleOn] at hx
    white := by
      intro d x hd ha hw
      show Path h.fields (Gr ls false n [] d) (Wh ls false n d) x
      rcases hw with hw | ⟨hc, _⟩
      · have hw := mUn.mp hw
        refine Path.mono ?_ ?_ (fun _ _ => rfl) (plainPath inv hm hd ha hw.2.1)
        · intro y hy
          exact .base (.inl (mMa.mpr ⟨hw.1, hy⟩))
        · intro y hy
          exact .inr (.inl (mUn.mpr ⟨hw.1, hy⟩))
      · cases hc
    clean := inv.clean
    ucAlloc := by
      intro x hx
      obtain ⟨d, hd, hx⟩ := inv.ucAlloc hx
      exact ⟨d, hd, mAl.mpr hx⟩
    ucStk := inv.ucStk
    stack := inv.stack
    stkLt := inv.stkLt
    noub := inv.noub }, ?_⟩
  refine ⟨rfl, rfl, rfl, rfl, rfl, rfl, rfl, rfl, rfl, rfl, Nat.le_refl _, fun _ _ => rfl, fun _ _ => rfl,
    fun _ _ h => h, fun {d x} hx => mAl.mpr hx, fun {x d} ha ho => ?_, fun h => h⟩
  show Own ls n x d
  rcases ho with h1 | h1 | h1 | ⟨_, h1⟩
  · exact .inl (mAl.mpr h1)
  · by_cases hc : d = n
    · exact .inr (.inr (.inr ⟨hc, hInGc.mpr (.inl (hc ▸ h1))⟩))
    · exact .inr (.inl (mMa.mpr ⟨hc, .inl h1⟩))
  · by_cases hc : d = n
    · exact .inr (.inr (.inr ⟨hc, hInGc.mpr (.inr (hc ▸ h1))⟩))
    · by_cases hs : x ∈ h.save
      · have hdf : d = h.gcFrame := by simpa using inv.pl.disj h1 (hsave hs)
        exact .inr (.inl (mMa.mpr ⟨hc, .inr ⟨hdf, hs⟩⟩))
      · exact .inr (.inr (.inl (mUn.mpr ⟨hc, h1, hs⟩)))
  · exact absurd h1 (accNoGc ha)

/-- What IncrGc leaves alone. -/
structure Frozen (h h' : Heap) : Prop where
  fields : h'.fields = h.fields
  label : h'.label = h.label
  sgc : h'.sgc = h.sgc
  nextA : h'.nextA = h.nextA

theorem freeOne_frozen (h : Heap) : Frozen h (freeOne h) := by
  unfold freeOne
  split <;> exact ⟨rfl, rfl, rfl, rfl⟩

theorem freeOne_ext (h : Heap) (R) : Ext h (freeOne h) R := by
  unfold freeOne
  split
  · exact Ext.refl _ _
  · rename_i a t hl
    have hne : ∀ l, l ≠ .gcFree → upd h.lists .gcFree t l = h.lists l := fun l hl => upd_ne _ _ hl
    refine ⟨rfl, rfl, rfl, rfl, rfl, rfl, rfl, rfl, rfl, rfl, Nat.le_refl _, fun _ _ => rfl, fun _ _ => rfl,
      fun _ _ h => h, fun {d x} hx => ?_, fun {x d} _ ho => ?_, fun h => h⟩
    · show x ∈ upd h.lists .gcFree t (.alloced d)
      rw [hne _ (by simp)]; exact hx
    · show Own (upd h.lists .gcFree t) h.gcFrame x d
      unfold Own InGc
      rw [hne (.alloced d) (by simp), hne (.marked d) (by simp), hne (.unmarked d) (by simp),
        hne .gcMarked (by simp), hne .gcUnmarked (by simp)]
      exact ho

theorem incrGc_inv {h R uc K} (inv : Inv h R uc K) :
    (∃ K', Inv (incrGc h) R uc K') ∧ NotStale (incrGc h) ∧ Ext h (incrGc h) R ∧
      Frozen h (incrGc h) := by
  have inv1 := freeOne_inv (freeOne_inv inv)
  have e1 : Ext h (freeOne (freeOne h)) R := (freeOne_ext h R).trans (freeOne_ext _ R)
  have f0 := freeOne_frozen h
  have f1 := freeOne_frozen (freeOne h)
  have fz : Frozen h (freeOne (freeOne h)) :=
    ⟨f1.1.trans f0.1, f1.2.trans f0.2, f1.3.trans f0.3, f1.4.trans f0.4⟩
  unfold incrGc
  generalize freeOne (freeOne h) = g at inv1 e1 fz
  dsimp only
  split
  · rename_i a t hm
    obtain ⟨i2, e2⟩ := traverse_inv inv1 hm
    obtain ⟨ls, es, _⟩ := traverse_spec inv1 hm
    refine ⟨⟨_, i2⟩, ?_, e1.trans e2, ?_⟩
    · have hns : NotStale g := by
        rcases inv1.stale with h1 | ⟨_, h2, _⟩
        · exact h1
        · rw [h2] at hm; simp at hm
      rw [es]
      exact hns
    · rw [es]
      exact ⟨fz.1, fz.2, fz.3, fz.4⟩
  · rename_i hm
    cases hnx : g.gcNext with
    | none =>
      obtain ⟨i2, e2⟩ := endCycle_none_inv inv1 hm hnx
      have es : endCycle g = moveAll g .gcFree .gcUnmarked := by
        have hi : g.interrupted = false := by
          cases hi : g.interrupted
          · rfl
          · exact absurd hnx (inv1.isint hi)
        unfold endCycle resurrect
        have : (moveAll g .gcFree .gcUnmarked).save = [] := (inv1.nonint hi).1
        simp only [this, List.foldl_nil]
        have : (moveAll g .gcFree .gcUnmarked).gcNext = none := hnx
        rw [this]
      refine ⟨⟨_, i2⟩, ?_, e1.trans e2, ?_⟩
      · rw [es]
        rcases inv1.stale with h1 | ⟨h1, _⟩
        · exact h1
        · exact absurd hnx (inv1.isint h1)
      · rw [es]
        exact ⟨fz.1, fz.2, fz.3, fz.4⟩
    | some n =>
      obtain ⟨i2, e2⟩ := endCycle_some_inv inv1 hm hnx
      obtain ⟨ls, es, _⟩ := endCycle_some_spec inv1 hm hnx
      refine ⟨⟨_, i2⟩, ?_, e1.trans e2, ?_⟩
      · rw [es]
        exact ⟨Nat.le_refl _, fun hc => by cases hc⟩
      · rw [es]
        exact ⟨fz.1, fz.2, fz.3, fz.4⟩

end Verif.Gc
