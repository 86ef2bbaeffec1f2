import Verif.Gc.Thm
/-
Progress of the collector: FbleValueFullGc terminates, and the collector eventually frees every
object that is not reachable from the objects it takes as roots.
-/
namespace Verif.Gc

/-- What the collector maintains so that it does not skip a frame. -/
structure Live (h : Heap) : Prop where
  p : ∀ {d x}, x ∈ h.lists (.marked d) ∨ x ∈ h.lists (.unmarked d) → ∃ n, h.gcNext = some n ∧ n ≤ d
  q : h.interrupted = true → h.gcNext = some h.gcFrame
  r : h.interrupted = false → h.save = []
  nx : ∀ {n}, h.gcNext = some n → h.gcFrame ≤ n ∧ n ≤ h.top
  ft : h.gcFrame ≤ h.top
  ab : ∀ {d x}, x ∈ h.lists (.marked d) ∨ x ∈ h.lists (.unmarked d) → d ≤ h.top

/-- `h'` has no more to collect than `h`. -/
structure Sub (h h' : Heap) : Prop where
  m : ∀ {d x}, x ∈ h'.lists (.marked d) → x ∈ h.lists (.marked d)
  u : ∀ {d x}, x ∈ h'.lists (.unmarked d) → x ∈ h.lists (.unmarked d)
  nx : h'.gcNext = h.gcNext
  fr : h'.gcFrame = h.gcFrame
  it : h'.interrupted = h.interrupted
  sv : h'.save = h.save
  tp : h'.top = h.top

theorem Sub.refl (h : Heap) : Sub h h := ⟨id, id, rfl, rfl, rfl, rfl, rfl⟩

theorem Sub.trans {a b c : Heap} (h1 : Sub a b) (h2 : Sub b c) : Sub a c :=
  ⟨fun h => h1.m (h2.m h), fun h => h1.u (h2.u h), h2.nx.trans h1.nx, h2.fr.trans h1.fr,
   h2.it.trans h1.it, h2.sv.trans h1.sv, h2.tp.trans h1.tp⟩

theorem Live.sub {h h' : Heap} (L : Live h) (s : Sub h h') : Live h' where
  p := by
    intro d x hx
    rw [s.nx]
    exact L.p (d := d) (x := x) (hx.imp s.m s.u)
  q := by rw [s.it, s.nx, s.fr]; exact L.q
  r := by rw [s.it, s.sv]; exact L.r
  nx := by
    intro n hn
    rw [s.fr, s.tp]
    exact L.nx (s.nx ▸ hn)
  ft := by rw [s.fr, s.tp]; exact L.ft
  ab := by
    intro d x hx
    rw [s.tp]
    exact L.ab (d := d) (x := x) (hx.imp s.m s.u)

theorem mem_moveTo {h : Heap} {dst l : LId} {a x : Addr} (hx : x ∈ (moveTo h dst a).lists l) :
    (l = dst ∧ x = a) ∨ x ∈ h.lists l := by
  simp only [moveTo] at hx
  split at hx
  · rcases List.mem_cons.mp hx with rfl | hx
    · exact .inl ⟨by assumption, rfl⟩
    · exact .inr (List.mem_filter.mp hx).1
  · exact .inr (List.mem_filter.mp hx).1

theorem moveTo_sub {h : Heap} {dst : LId} {a : Addr} (h1 : ∀ d, dst ≠ .marked d)
    (h2 : ∀ d, dst ≠ .unmarked d) : Sub h (moveTo h dst a) where
  m := by
    intro d x hx
    rcases mem_moveTo hx with ⟨h, _⟩ | h
    · exact absurd h.symm (h1 d)
    · exact h
  u := by
    intro d x hx
    rcases mem_moveTo hx with ⟨h, _⟩ | h
    · exact absurd h.symm (h2 d)
    · exact h
  nx := rfl
  fr := rfl
  it := rfl
  sv := rfl
  tp := rfl

theorem markRef_sub (h : Heap) (v : Val) : Sub h (markRef h v) := by
  cases v with
  | imm n => exact .refl h
  | gc a =>
    simp only [markRef]
    split
    · exact (Sub.mk id id rfl rfl rfl rfl rfl : Sub h (touch h a)).trans
        (moveTo_sub (by simp) (by simp))
    · exact ⟨id, id, rfl, rfl, rfl, rfl, rfl⟩
  | stk s => exact ⟨id, id, rfl, rfl, rfl, rfl, rfl⟩
  | uninit => exact ⟨id, id, rfl, rfl, rfl, rfl, rfl⟩

theorem markRefs_sub (vs : List Val) : ∀ h : Heap, Sub h (markRefs h vs) := by
  induction vs with
  | nil => exact .refl
  | cons v vs ih => intro h; exact (markRef_sub h v).trans (ih _)

theorem freeOne_sub (h : Heap) : Sub h (freeOne h) := by
  unfold freeOne
  split
  · exact .refl h
  · exact ⟨fun hx => by simpa [upd] using hx, fun hx => by simpa [upd] using hx, rfl, rfl, rfl, rfl, rfl⟩

/-- Putting an object on `unmarked` of the frame being collected is fine while interrupted. -/
theorem Live.moveTo {h : Heap} (L : Live h) {dst : LId} {a : Addr}
    (hd : ∀ d, dst = .marked d ∨ dst = .unmarked d → d ≤ h.top ∧ ∃ n, h.gcNext = some n ∧ n ≤ d) :
    Live (moveTo h dst a) where
  ab := by
    intro d x hx
    rcases hx with hx | hx
    · rcases mem_moveTo hx with ⟨h1, _⟩ | h1
      · exact (hd d (.inl h1.symm)).1
      · exact L.ab (.inl h1)
    · rcases mem_moveTo hx with ⟨h1, _⟩ | h1
      · exact (hd d (.inr h1.symm)).1
      · exact L.ab (.inr h1)
  p := by
    intro d x hx
    rcases hx with hx | hx
    · rcases mem_moveTo hx with ⟨h1, _⟩ | h1
      · exact (hd d (.inl h1.symm)).2
      · exact L.p (.inl h1)
    · rcases mem_moveTo hx with ⟨h1, _⟩ | h1
      · exact (hd d (.inr h1.symm)).2
      · exact L.p (.inr h1)
  q := L.q
  r := L.r
  nx := L.nx
  ft := L.ft

theorem traverse_live {h : Heap} (L : Live h) (a : Addr) (t : List Addr) : Live (traverse h a t) := by
  unfold traverse
  have s1 : Sub h (touch (getMarked h t) a) :=
    ⟨fun hx => by simpa [touch, getMarked, upd] using hx, fun hx => by simpa [touch, getMarked, upd] using hx,
      rfl, rfl, rfl, rfl, rfl⟩
  dsimp only
  generalize hg : touch (getMarked h t) a = g at *
  have s2 : Sub h { g with gen := upd g.gen a g.gcGen } := ⟨s1.1, s1.2, s1.3, s1.4, s1.5, s1.6, s1.7⟩
  have s3 := s2.trans (markRefs_sub (g.fields a) _)
  have L3 := L.sub s3
  generalize markRefs _ (g.fields a) = k at L3
  refine L3.moveTo fun d hd => ?_
  split at hd
  · rename_i hi
    have := L3.q hi
    have hd : k.gcFrame = d := by
      rcases hd with hd | hd
      · simp at hd
      · simpa using hd
    exact ⟨hd ▸ L3.ft, _, this, by omega⟩
  · rcases hd with hd | hd <;> simp at hd

theorem mem_moveAll' {h : Heap} {dst src : LId} {x : Addr} {l : LId}
    (hx : x ∈ (moveAll h dst src).lists l) : l ≠ src ∧ (x ∈ h.lists l ∨ (l = dst ∧ x ∈ h.lists src)) := by
  simp only [moveAll, upd] at hx
  split at hx
  · simp at hx
  · split at hx
    · rename_i h1 h2
      subst h2
      rcases List.mem_append.mp hx with hx | hx
      · exact ⟨h1, .inr ⟨rfl, hx⟩⟩
      · exact ⟨h1, .inl hx⟩
    · exact ⟨by assumption, .inl hx⟩

theorem moveAll_sub {h : Heap} {dst src : LId} (h1 : ∀ d, dst ≠ .marked d)
    (h2 : ∀ d, dst ≠ .unmarked d) : Sub h (moveAll h dst src) where
  m := by
    intro d x hx
    rcases (mem_moveAll' hx).2 with h | ⟨h, _⟩
    · exact h
    · exact absurd h.symm (h1 d)
  u := by
    intro d x hx
    rcases (mem_moveAll' hx).2 with h | ⟨h, _⟩
    · exact h
    · exact absurd h.symm (h2 d)
  nx := rfl
  fr := rfl
  it := rfl
  sv := rfl
  tp := rfl

theorem resurrect_live {h : Heap} (L : Live h) : Live (resurrect h) ∧
    (resurrect h).gcNext = h.gcNext := by
  unfold resurrect
  have key : ∀ (sv : List Addr) (g : Heap), Live g → (sv ≠ [] → g.interrupted = true) →
      Live (sv.foldl (fun h a => Verif.Gc.moveTo h (.marked h.gcFrame) a) g) ∧
      (sv.foldl (fun h a => Verif.Gc.moveTo h (.marked h.gcFrame) a) g).gcNext = g.gcNext := by
    intro sv
    induction sv with
    | nil => intro g hg _; exact ⟨hg, rfl⟩
    | cons a sv ih =>
      intro g hg hi
      have hi := hi (by simp)
      have := ih (Verif.Gc.moveTo g (.marked g.gcFrame) a) (hg.moveTo fun d hd => by
        have hd : g.gcFrame = d := by simpa using hd
        exact ⟨hd ▸ hg.ft, _, hg.q hi, by omega⟩) (fun _ => hi)
      exact this
  refine key _ h L fun hs => ?_
  by_contra hi
  exact hs (L.r (by simpa using hi))

theorem startCycle_live {h : Heap} (L : Live h) {n} (hn : h.gcNext = some n) : Live (startCycle h n) := by
  have hnt := L.nx hn
  have key : ∀ {d x}, x ∈ (startCycle h n).lists (.marked d) ∨ x ∈ (startCycle h n).lists (.unmarked d) →
      d ≠ n ∧ (x ∈ h.lists (.marked d) ∨ x ∈ h.lists (.unmarked d)) := by
    intro d x hx
    simp only [startCycle] at hx
    rcases hx with hx | hx
    · obtain ⟨h1, hx⟩ := mem_moveAll' hx
      rcases hx with hx | ⟨hx, _⟩
      · obtain ⟨h1, hx⟩ := mem_moveAll' hx
        rcases hx with hx | ⟨hx, _⟩
        · exact ⟨fun e => h1 (by rw [e]), .inl hx⟩
        · simp at hx
      · simp at hx
    · obtain ⟨h1, hx⟩ := mem_moveAll' hx
      rcases hx with hx | ⟨hx, _⟩
      · obtain ⟨_, hx⟩ := mem_moveAll' hx
        rcases hx with hx | ⟨hx, _⟩
        · exact ⟨fun e => h1 (by rw [e]), .inr hx⟩
        · simp at hx
      · simp at hx
  have hnx : (startCycle h n).gcNext = if n = h.top then none else some (n + 1) := rfl
  refine ⟨?_, ?_, fun _ => rfl, ?_, hnt.2, fun hx => L.ab (key hx).2⟩
  · intro d x hx
    obtain ⟨hd, hx⟩ := key hx
    obtain ⟨m, hm, hmd⟩ := L.p hx
    have := L.ab hx
    rw [hn] at hm
    cases hm
    rw [hnx, if_neg (by omega)]
    exact ⟨_, rfl, by omega⟩
  · intro hi
    cases hi
  · intro m hm
    rw [hnx] at hm
    show n ≤ m ∧ m ≤ h.top
    split at hm
    · cases hm
    · cases hm; omega

theorem incrGc_live {h : Heap} (L : Live h) : Live (incrGc h) := by
  unfold incrGc
  have L1 := (L.sub (freeOne_sub h)).sub (freeOne_sub _)
  generalize freeOne (freeOne h) = g at L1
  dsimp only
  split
  · exact traverse_live L1 _ _
  · have L2 : Live (moveAll g .gcFree .gcUnmarked) := L1.sub (moveAll_sub (by simp) (by simp))
    obtain ⟨L3, e3⟩ := resurrect_live L2
    unfold endCycle
    dsimp only
    split
    · exact L3
    · rename_i n hn
      exact startCycle_live L3 hn

theorem newGc_live {h : Heap} (L : Live h) (d lb fs) : Live (newGc h d lb fs) :=
  (incrGc_live L).sub ⟨fun hx => by simpa [newGc, allocGc, upd] using hx,
    fun hx => by simpa [newGc, allocGc, upd] using hx, rfl, rfl, rfl, rfl, rfl⟩

theorem same_live {h h' : Heap} (L : Live h) (e : h'.lists = h.lists) (nx : h'.gcNext = h.gcNext)
    (fr : h'.gcFrame = h.gcFrame) (it : h'.interrupted = h.interrupted) (sv : h'.save = h.save)
    (tp : h'.top = h.top) : Live h' :=
  L.sub ⟨fun hx => e ▸ hx, fun hx => e ▸ hx, nx, fr, it, sv, tp⟩

theorem reallocFields_live {rec : Heap → Val → Heap × Val}
    (hrec : ∀ h v, Live h → Live (rec h v).1) (a : Addr) (vs : List Val) :
    ∀ (i : Nat) (h : Heap), Live h → Live (reallocFields rec a i vs h) := by
  induction vs with
  | nil => intro i h L; exact L
  | cons v vs ih =>
    intro i h L
    exact ih _ _ (same_live (hrec h v L) rfl rfl rfl rfl rfl rfl)

theorem gcRealloc_live (fuel : Nat) : ∀ (h : Heap) (v : Val), Live h → Live (gcRealloc fuel h v).1 := by
  induction fuel with
  | zero =>
    intro h v L
    cases v <;> exact same_live L rfl rfl rfl rfl rfl rfl
  | succ fuel ih =>
    intro h v L
    cases v with
    | imm n => exact L
    | gc a => exact same_live L rfl rfl rfl rfl rfl rfl
    | uninit => exact same_live L rfl rfl rfl rfl rfl rfl
    | stk s =>
      simp only [gcRealloc]
      split
      · exact same_live L rfl rfl rfl rfl rfl rfl
      · refine reallocFields_live ih _ _ _ _ ?_
        have L1 : Live { h with ub := h.ub || !h.salive s } := same_live L rfl rfl rfl rfl rfl rfl
        exact same_live (newGc_live L1 (h.sframe s) (h.slabel s) ((h.sfields s).map fun _ => .uninit))
          rfl rfl rfl rfl rfl rfl

theorem realloc_live {h : Heap} (L : Live h) (v : Val) : Live (realloc h v).1 := gcRealloc_live _ _ _ L

theorem reallocAll_live (vs : List Val) : ∀ {h : Heap}, Live h → Live (reallocAll h vs).1 := by
  induction vs with
  | nil => intro h L; exact L
  | cons v vs ih => intro h L; exact ih (realloc_live L v)

/-- Like `Sub`, except for the frame at depth `t`. -/
structure Off (t : Nat) (h h' : Heap) : Prop where
  mu : ∀ {d x}, d ≠ t → x ∈ h'.lists (.marked d) ∨ x ∈ h'.lists (.unmarked d) →
    x ∈ h.lists (.marked d) ∨ x ∈ h.lists (.unmarked d)
  nx : h'.gcNext = h.gcNext
  fr : h'.gcFrame = h.gcFrame
  it : h'.interrupted = h.interrupted
  sv : h'.save = h.save
  tp : h'.top = h.top

theorem Off.refl (t h) : Off t h h := ⟨fun _ h => h, rfl, rfl, rfl, rfl, rfl⟩

theorem Off.trans {t a b c} (h1 : Off t a b) (h2 : Off t b c) : Off t a c :=
  ⟨fun hd h => h1.mu hd (h2.mu hd h), h2.nx.trans h1.nx, h2.fr.trans h1.fr, h2.it.trans h1.it,
   h2.sv.trans h1.sv, h2.tp.trans h1.tp⟩

/-- Lists that do not matter for other frames than `t`. -/
def Local (t : Nat) (l : LId) : Prop := (∀ d, l = .marked d → d = t) ∧ ∀ d, l = .unmarked d → d = t

theorem moveAll_off {t h dst src} (hl : Local t dst) : Off t h (moveAll h dst src) :=
  ⟨fun {d x} hd hx => by
    rcases hx with hx | hx
    · rcases (mem_moveAll' hx).2 with h1 | ⟨h1, _⟩
      · exact .inl h1
      · exact absurd (hl.1 d h1.symm) hd
    · rcases (mem_moveAll' hx).2 with h1 | ⟨h1, _⟩
      · exact .inr h1
      · exact absurd (hl.2 d h1.symm) hd, rfl, rfl, rfl, rfl, rfl⟩

theorem moveVal_off {t h dst} (v : Val) (hl : Local t dst) : Off t h (moveVal h dst v) := by
  cases v with
  | gc a =>
    exact ⟨fun {d x} hd hx => by
      rcases hx with hx | hx
      · rcases mem_moveTo hx with ⟨h1, _⟩ | h1
        · exact absurd (hl.1 d h1.symm) hd
        · exact .inl h1
      · rcases mem_moveTo hx with ⟨h1, _⟩ | h1
        · exact absurd (hl.2 d h1.symm) hd
        · exact .inr h1, rfl, rfl, rfl, rfl, rfl⟩
  | _ => exact .refl _ _

theorem fold_off {t} {F : Heap → Val → Heap} (hF : ∀ h v, Off t h (F h v)) (vs : List Val) :
    ∀ h, Off t h (vs.foldl F h) := by
  induction vs with
  | nil => exact .refl t
  | cons v vs ih => intro h; exact (hF h v).trans (ih _)

theorem local_m (t) : Local t (.marked t) := by simp [Local]
theorem local_u (t) : Local t (.unmarked t) := by simp [Local]
theorem local_g (t) : Local t .gcMarked := by simp [Local]

theorem close_live {h : Heap} (L : Live h) {k : Heap} {c n : Nat} (tp : k.top = c) (kn : k.gcNext = some n)
    (nc : n ≤ c) (fr : k.gcFrame ≤ n)
    (mu : ∀ {d x}, d ≠ c → x ∈ k.lists (.marked d) ∨ x ∈ k.lists (.unmarked d) →
      d < c ∧ (x ∈ h.lists (.marked d) ∨ x ∈ h.lists (.unmarked d)))
    (hm : ∀ m, h.gcNext = some m → m < c → n = m) (q : k.interrupted = true → n = k.gcFrame)
    (sv : k.interrupted = false → k.save = []) : Live k := by
  refine ⟨?_, ?_, sv, ?_, ?_, ?_⟩
  · intro d x hx
    refine ⟨n, kn, ?_⟩
    by_cases hd : d = c
    · omega
    · obtain ⟨h1, h2⟩ := mu hd hx
      obtain ⟨m, hm', hmd⟩ := L.p h2
      have := hm m hm' (by omega)
      omega
  · intro hi
    rw [kn, q hi]
  · intro m hm
    rw [kn] at hm
    cases hm
    exact ⟨fr, by omega⟩
  · omega
  · intro d x hx
    by_cases hd : d = c
    · omega
    · have := (mu hd hx).1
      omega

theorem compact_live {h : Heap} (L : Live h) (vs : List Val) : Live (compactLists h vs) := by
  unfold compactLists
  dsimp only
  have o1 : Off h.top h { h with
    genF := upd h.genF h.top (h.maxGen h.top), maxGen := upd h.maxGen h.top (h.maxGen h.top + 1),
    salive := fun s => h.salive s && h.sframe s != h.top } := ⟨fun _ h => h, rfl, rfl, rfl, rfl, rfl⟩
  have o2 := o1.trans (moveAll_off (src := .marked h.top) (local_u h.top))
  have o3 := o2.trans (moveAll_off (src := .alloced h.top) (local_u h.top))
  have o4 := o3.trans (fold_off (t := h.top) (F := fun g v =>
      if youngFrom g (g.minGen h.top) v = true then moveVal g (.marked h.top) v else g) (fun g v => by
        split
        · exact moveVal_off v (local_m _)
        · exact .refl _ _) vs _)
  clear o1 o2 o3
  generalize hg : List.foldl _ _ vs = g at o4 ⊢
  clear hg
  have ab : ∀ {k : Heap}, Off h.top h k → ∀ {d x}, d ≠ h.top →
      x ∈ k.lists (.marked d) ∨ x ∈ k.lists (.unmarked d) →
      d < h.top ∧ (x ∈ h.lists (.marked d) ∨ x ∈ h.lists (.unmarked d)) := by
    intro k o d x hd hx
    have := L.ab (o.mu hd hx)
    exact ⟨by omega, o.mu hd hx⟩
  have key : ∀ k : Heap, (∀ {d x}, d ≠ h.top → x ∈ k.lists (.marked d) ∨ x ∈ k.lists (.unmarked d) →
      d < h.top ∧ (x ∈ h.lists (.marked d) ∨ x ∈ h.lists (.unmarked d))) → k.gcNext = h.gcNext →
      k.gcFrame = h.gcFrame → (k.interrupted = true → k.gcFrame = h.top ∨ h.interrupted = true) →
      (k.interrupted = false → k.save = []) → k.top = h.top →
      Live (if k.gcNext = none then { k with gcNext := some h.top } else k) := by
    intro k mu nx fr it sv tp
    split
    · rename_i hk
      refine close_live L (c := h.top) (n := h.top) tp rfl (Nat.le_refl _) (fr ▸ L.ft) mu ?_ ?_ sv
      · intro m hm
        rw [← nx, hk] at hm
        cases hm
      · intro hi
        show h.top = k.gcFrame
        rcases it hi with h1 | h1
        · exact h1.symm
        · have := L.q h1
          rw [← nx, hk] at this
          cases this
    · rename_i hk
      cases hk' : k.gcNext with
      | none => exact absurd hk' hk
      | some n =>
        have hn := L.nx (nx ▸ hk')
        refine close_live L (c := h.top) (n := n) tp hk' hn.2 (fr ▸ hn.1) mu ?_ ?_ sv
        · intro m hm _
          rw [← nx, hk'] at hm
          cases hm
          rfl
        · intro hi
          rcases it hi with h1 | h1
          · rw [fr] at h1 ⊢
            omega
          · have := L.q h1
            rw [← nx, hk'] at this
            cases this
            rw [fr]
  split
  · rename_i hf
    have o0 : Off h.top { g with interrupted := true } (List.foldl (fun h v => moveVal h .gcMarked v)
        { g with interrupted := true } (vs.filter (inGcRange { g with interrupted := true }))) :=
      fold_off (fun g v => moveVal_off v (local_g _)) _ _
    have e : { g with interrupted := true }.gcFrame = h.gcFrame := o4.fr
    generalize List.foldl (fun h v => moveVal h .gcMarked v) _ _ = k at o0
    refine key { k with save := _ } (fun hd hx => ab o4 hd (o0.mu hd hx)) (o0.nx.trans o4.nx)
      (o0.fr.trans o4.fr) (fun _ => .inl (o0.fr.trans hf)) (fun hi => ?_) (o0.tp.trans o4.tp)
    have := o0.it
    simp only at hi this
    rw [hi] at this
    cases this
  · exact key g (ab o4) o4.nx o4.fr (fun hi => .inr (o4.it ▸ hi)) (fun hi => by
      rw [o4.sv]; exact L.r (o4.it ▸ hi)) o4.tp

/-- The heap after the first lines of FblePopFrame. -/
def popStart (h : Heap) : Heap :=
  { h with top := h.top - 1, salive := fun s => h.salive s && h.sframe s != h.top }

/-- The rest of FblePopFrame. -/
def popRest (t c : Nat) (v : Val) (h : Heap) : Heap :=
  popTail t c v (if youngFrom h (h.minGen t) v then
      moveVal { h with maxGen := upd h.maxGen c (h.maxGen t) } (.marked c) v
    else h)

theorem pop_live {h : Heap} (L : Live h) (v : Val) (ht : 0 < h.top) : Live (popLists h v) := by
  unfold popLists
  dsimp only
  change Live (popRest h.top (h.top - 1) v (moveAll (moveAll (moveAll (popStart h)
    (.unmarked (h.top - 1)) (.unmarked h.top)) (.unmarked (h.top - 1)) (.marked h.top))
    (.unmarked (h.top - 1)) (.alloced h.top)))
  have o1 : Off (h.top - 1) { h with top := h.top - 1 } (popStart h) :=
    ⟨fun _ h => h, rfl, rfl, rfl, rfl, rfl⟩
  have o2 := o1.trans (moveAll_off (src := .unmarked h.top) (local_u (h.top - 1)))
  have o3 := o2.trans (moveAll_off (src := .marked h.top) (local_u (h.top - 1)))
  have o4 := o3.trans (moveAll_off (src := .alloced h.top) (local_u (h.top - 1)))
  clear o1 o2
  have none : ∀ x, x ∉ (moveAll (moveAll (moveAll (popStart h) (.unmarked (h.top - 1)) (.unmarked h.top))
      (.unmarked (h.top - 1)) (.marked h.top)) (.unmarked (h.top - 1)) (.alloced h.top)).lists (.marked h.top) ∧
      x ∉ (moveAll (moveAll (moveAll (popStart h) (.unmarked (h.top - 1)) (.unmarked h.top))
      (.unmarked (h.top - 1)) (.marked h.top)) (.unmarked (h.top - 1)) (.alloced h.top)).lists (.unmarked h.top) := by
    have hne : h.top ≠ h.top - 1 := by omega
    intro x
    constructor
    · intro hx
      rcases (mem_moveAll' hx).2 with hx | ⟨hx, _⟩
      · exact (mem_moveAll' hx).1 rfl
      · simp at hx
    · intro hx
      rcases (mem_moveAll' hx).2 with hx | ⟨hx, _⟩
      · rcases (mem_moveAll' hx).2 with hx | ⟨hx, _⟩
        · exact (mem_moveAll' hx).1 rfl
        · simp [hne] at hx
      · simp [hne] at hx
  generalize moveAll (moveAll (moveAll (popStart h) (.unmarked (h.top - 1)) (.unmarked h.top))
      (.unmarked (h.top - 1)) (.marked h.top)) (.unmarked (h.top - 1)) (.alloced h.top) = g at *
  unfold popRest popTail
  dsimp only
  have o5 : Off (h.top - 1) g (if youngFrom g (g.minGen h.top) v = true then
      moveVal { g with maxGen := upd g.maxGen (h.top - 1) (g.maxGen h.top) } (.marked (h.top - 1)) v else g) := by
    split
    · exact (Off.mk (fun _ h => h) rfl rfl rfl rfl rfl :
        Off _ g { g with maxGen := upd g.maxGen (h.top - 1) (g.maxGen h.top) }).trans (moveVal_off v (local_m _))
    · exact .refl _ _
  generalize (if youngFrom g (g.minGen h.top) v = true then
      moveVal { g with maxGen := upd g.maxGen (h.top - 1) (g.maxGen h.top) } (.marked (h.top - 1)) v else g)
      = k at *
  have mu : ∀ {d x}, d ≠ h.top - 1 → x ∈ k.lists (.marked d) ∨ x ∈ k.lists (.unmarked d) →
      d < h.top - 1 ∧ (x ∈ h.lists (.marked d) ∨ x ∈ h.lists (.unmarked d)) := by
    intro d x hd hx
    have h1 := o5.mu hd hx
    have h2 := o4.mu hd h1
    have h3 := L.ab h2
    have h4 : d ≠ h.top := by
      rintro rfl
      rcases h1 with h1 | h1
      · exact (none x).1 h1
      · exact (none x).2 h1
    exact ⟨by omega, h2⟩
  have key : ∀ j : Heap, (∀ {d x}, d ≠ h.top - 1 → x ∈ j.lists (.marked d) ∨ x ∈ j.lists (.unmarked d) →
      d < h.top - 1 ∧ (x ∈ h.lists (.marked d) ∨ x ∈ h.lists (.unmarked d))) → j.gcNext = h.gcNext →
      ((h.gcFrame = h.top ∧ j.gcFrame = h.top - 1) ∨
        (h.gcFrame < h.top ∧ j.gcFrame = h.gcFrame ∧ j.interrupted = h.interrupted)) →
      (j.interrupted = false → j.save = []) → j.top = h.top - 1 →
      Live (if j.gcNext = .none ∨ j.gcNext = some h.top then { j with gcNext := some (h.top - 1) } else j) := by
    intro j mu nx fr sv tp
    have hfr : j.gcFrame ≤ h.top - 1 := by rcases fr with h1 | h1 <;> omega
    split
    · rename_i hk
      refine close_live L (c := h.top - 1) (n := h.top - 1) tp rfl (Nat.le_refl _) hfr mu ?_ ?_ sv
      · intro m hm _
        rw [nx, hm] at hk
        simp at hk
        omega
      · intro hi
        show h.top - 1 = j.gcFrame
        rcases fr with h1 | ⟨h1, h2, h3⟩
        · exact h1.2.symm
        · have := L.q (h3 ▸ hi)
          rw [nx, this] at hk
          simp at hk
          omega
    · rename_i hk
      cases hk' : j.gcNext with
      | none => simp [hk'] at hk
      | some n =>
        have hn := L.nx (nx ▸ hk')
        have hne : n ≠ h.top := by
          rintro rfl
          simp [hk'] at hk
        refine close_live L (c := h.top - 1) (n := n) tp hk' (by omega) (by rcases fr with h1 | h1 <;> omega)
          mu ?_ ?_ sv
        · intro m hm _
          rw [← nx, hk'] at hm
          cases hm
          rfl
        · intro hi
          rcases fr with h1 | ⟨h1, h2, h3⟩
          · omega
          · have := L.q (h3 ▸ hi)
            rw [← nx, hk'] at this
            cases this
            rw [h2]
  have hkf : k.gcFrame = h.gcFrame := o5.fr.trans o4.fr
  split
  · rename_i hf
    split
    · have o6 : Off (h.top - 1) { k with interrupted := true, gcFrame := h.top - 1 }
        (moveVal { k with interrupted := true, gcFrame := h.top - 1 } .gcMarked v) := moveVal_off v (local_g _)
      generalize moveVal { k with interrupted := true, gcFrame := h.top - 1 } .gcMarked v = j at o6
      refine key { j with save := _ } (fun hd hx => mu hd (o6.mu hd hx))
        (o6.nx.trans (o5.nx.trans o4.nx)) (.inl ⟨hkf ▸ hf, o6.fr⟩) (fun hi => ?_) (o6.tp.trans (o5.tp.trans o4.tp))
      have := o6.it
      simp only at hi this
      rw [hi] at this
      cases this
    · exact key { k with interrupted := true, gcFrame := h.top - 1, save := [] } mu (o5.nx.trans o4.nx)
        (.inl ⟨hkf ▸ hf, rfl⟩) (fun _ => rfl) (o5.tp.trans o4.tp)
  · rename_i hf
    refine key k mu (o5.nx.trans o4.nx) (.inr ⟨?_, hkf, o5.it.trans o4.it⟩) (fun hi => ?_) (o5.tp.trans o4.tp)
    · have := L.ft
      rw [hkf] at hf
      omega
    · rw [o5.sv.trans o4.sv]
      exact L.r ((o5.it.trans o4.it) ▸ hi)

theorem push_live {h : Heap} (L : Live h) (m : Bool) : Live (pushFrame h m) := by
  unfold pushFrame
  split
  · exact same_live L rfl rfl rfl rfl rfl rfl
  · have key : ∀ {d x}, (x ∈ (if LId.marked d = .alloced (h.top + 1) ∨ LId.marked d = .marked (h.top + 1) ∨
        LId.marked d = .unmarked (h.top + 1) then [] else h.lists (.marked d)) ∨
        x ∈ (if LId.unmarked d = .alloced (h.top + 1) ∨ LId.unmarked d = .marked (h.top + 1) ∨
        LId.unmarked d = .unmarked (h.top + 1) then [] else h.lists (.unmarked d))) →
        x ∈ h.lists (.marked d) ∨ x ∈ h.lists (.unmarked d) := by
      intro d x hx
      rcases hx with hx | hx <;> split at hx
      · simp at hx
      · exact .inl hx
      · simp at hx
      · exact .inr hx
    refine ⟨fun hx => L.p (key hx), L.q, L.r, fun hn => ?_, Nat.le_succ_of_le L.ft, fun hx => ?_⟩
    · exact ⟨(L.nx hn).1, Nat.le_succ_of_le (L.nx hn).2⟩
    · exact Nat.le_succ_of_le (L.ab (key hx))

theorem incrGc_top (h : Heap) : (incrGc h).top = h.top := by
  have e1 : (freeOne (freeOne h)).top = h.top := ((freeOne_sub _).trans (freeOne_sub _)).tp
  unfold incrGc
  generalize freeOne (freeOne h) = g at e1
  dsimp only
  split
  · rename_i a t hm
    unfold traverse
    dsimp only
    exact (markRefs_sub (g.fields a) _).tp.trans e1
  · have e2 : (resurrect (moveAll g .gcFree .gcUnmarked)).top = h.top := by
      unfold resurrect
      have key : ∀ (sv : List Addr) (g : Heap),
          (sv.foldl (fun h a => Verif.Gc.moveTo h (.marked h.gcFrame) a) g).top = g.top := by
        intro sv
        induction sv with
        | nil => intro g; rfl
        | cons a sv ih => intro g; exact ih _
      exact (key _ _).trans e1
    unfold endCycle
    dsimp only
    split
    · exact e2
    · exact e2

theorem gcRealloc_top (fuel : Nat) : ∀ (h : Heap) (v : Val), (gcRealloc fuel h v).1.top = h.top := by
  have key : ∀ (rec : Heap → Val → Heap × Val), (∀ h v, (rec h v).1.top = h.top) → ∀ (a : Addr) (vs : List Val)
      (i : Nat) (h : Heap), (reallocFields rec a i vs h).top = h.top := by
    intro rec hrec a vs
    induction vs with
    | nil => intro i h; rfl
    | cons v vs ih => intro i h; exact (ih _ _).trans (hrec h v)
  induction fuel with
  | zero => intro h v; cases v <;> rfl
  | succ fuel ih =>
    intro h v
    cases v with
    | stk s =>
      simp only [gcRealloc]
      split
      · rfl
      · exact (key _ ih _ _ _ _).trans (incrGc_top _)
    | _ => rfl

theorem realloc_top (h : Heap) (v : Val) : (realloc h v).1.top = h.top := gcRealloc_top _ _ _

theorem step_live {s : Sys} (L : Live s.heap) {op : Op} (hl : Legal s op) : Live (step s op).heap := by
  cases op with
  | new lb fs => exact same_live L rfl rfl rfl rfl rfl rfl
  | newRef lb => exact newGc_live L _ _ _
  | assign r v => exact same_live (realloc_live L v) rfl rfl rfl rfl rfl rfl
  | push m =>
    simp only [step]
    split
    · exact push_live L true
    · exact push_live L false
  | pop v =>
    have h0 := hl.2
    simp only [step]
    split <;> simp only [popFrame]
    · rename_i hm
      rw [if_pos hm]
      exact same_live L rfl rfl rfl rfl rfl rfl
    · rename_i hm
      rw [if_neg hm]
      have h0 := h0 (by omega)
      have hp : (realloc s.heap v).1.top = s.heap.top := realloc_top _ _
      exact pop_live (realloc_live L v) _ (by omega)
  | compact m vs =>
    simp only [step]
    split
    · exact L
    · split <;> simp only [compactFrame]
      · rename_i hm
        simp only [hm, if_true, Bool.false_eq_true, if_false]
        refine push_live (h := { s.heap with merges := _ }) ?_ false
        exact same_live L rfl rfl rfl rfl rfl rfl
      · rename_i hm
        simp only [hm, Bool.false_eq_true, if_false]
        exact compact_live (reallocAll_live vs L) _
  | gc => exact incrGc_live L

theorem history_live {bad} {s : Sys} (hs : History bad s) : Live s.heap := by
  induction hs with
  | start => exact ⟨by simp [start, initial], by simp [start, initial], by simp [start, initial],
      by simp [start, initial], by simp [start, initial], by simp [start, initial]⟩
  | step op _ hl _ ih => exact step_live ih hl

/-! ### Progress -/

/-- Reachable through fields from objects in `S`. -/
inductive FieldReach (h : Heap) (S : Addr → Prop) : Addr → Prop where
  | root {a} : S a → FieldReach h S a
  | step {a b} : FieldReach h S a → .gc b ∈ h.fields a → FieldReach h S b

/-- The state of a heap on which only the collector runs; `S` is what it may keep. -/
structure Good (S : Addr → Prop) (h : Heap) : Prop where
  inv : ∃ R K, Inv h R [] K
  live : Live h
  cl : ∀ {a b}, S a → .gc b ∈ h.fields a → S b
  al : ∀ {d a}, a ∈ h.lists (.alloced d) → S a
  mkd : ∀ {d a}, a ∈ h.lists (.marked d) → S a
  gm : ∀ {a}, a ∈ h.lists .gcMarked → S a
  sv : ∀ {a}, a ∈ h.save → S a

theorem freeOne_lists (h : Heap) {l} (hl : l ≠ .gcFree) : (freeOne h).lists l = h.lists l := by
  unfold freeOne
  split
  · rfl
  · exact upd_ne _ _ hl

theorem Good.freeOne {S h} (g : Good S h) : Good S (freeOne h) := by
  obtain ⟨R, K, inv⟩ := g.inv
  have fz := freeOne_frozen h
  have hs : (Verif.Gc.freeOne h).save = h.save := (freeOne_sub h).sv
  refine ⟨⟨R, K, freeOne_inv inv⟩, g.live.sub (freeOne_sub h), ?_, ?_, ?_, ?_, ?_⟩
  · rw [fz.fields]; exact g.cl
  · intro d a; rw [freeOne_lists h (by simp)]; exact g.al
  · intro d a; rw [freeOne_lists h (by simp)]; exact g.mkd
  · intro a; rw [freeOne_lists h (by simp)]; exact g.gm
  · rw [hs]; exact g.sv

/-- How many objects the collection in progress has not traversed. -/
def cnt (h : Heap) : Nat := (List.range h.nextA).countP fun x => h.gen x != h.gcGen

theorem countP_upd_lt {g : Addr → Nat} {c : Nat} {a : Addr} {l : List Addr} (ha : a ∈ l) (hg : g a ≠ c) :
    l.countP (fun x => upd g a c x != c) < l.countP (fun x => g x != c) := by
  have key : ∀ l : List Addr, l.countP (fun x => upd g a c x != c) ≤ l.countP (fun x => g x != c) ∧
      (a ∈ l → l.countP (fun x => upd g a c x != c) < l.countP (fun x => g x != c)) := by
    intro l
    induction l with
    | nil => simp
    | cons y l ih =>
      rw [List.countP_cons, List.countP_cons]
      by_cases hy : y = a
      · subst hy
        simp only [upd_same, bne_self_eq_false, Bool.false_eq_true, if_false, bne_iff_ne, ne_eq, hg,
          not_false_eq_true, if_true]
        have := ih.1
        exact ⟨by omega, fun _ => by omega⟩
      · rw [upd_ne g c hy]
        refine ⟨by have := ih.1; omega, fun h => ?_⟩
        have := ih.2 (by simpa [Ne.symm hy] using h)
        omega
  exact (key l).2 ha

theorem freeOne_scal (h : Heap) : (freeOne h).gen = h.gen ∧ (freeOne h).gcGen = h.gcGen ∧
    (freeOne h).nextA = h.nextA ∧ (freeOne h).gcNext = h.gcNext ∧ (freeOne h).top = h.top ∧
    (∀ x, (freeOne h).alive x = true → h.alive x = true) := by
  unfold freeOne
  split
  · exact ⟨rfl, rfl, rfl, rfl, rfl, fun _ h => h⟩
  · refine ⟨rfl, rfl, rfl, rfl, rfl, fun x hx => ?_⟩
    simp only [upd] at hx
    split at hx
    · simp at hx
    · exact hx

/-- What one step does. -/
theorem incr_cases {S h} (g : Good S h) : Good S (incrGc h) ∧
    (∀ x, (incrGc h).alive x = true → h.alive x = true) ∧ (incrGc h).top = h.top ∧
    ((h.lists .gcMarked ≠ [] ∧ (incrGc h).gcNext = h.gcNext ∧ cnt (incrGc h) < cnt h) ∨
     (h.lists .gcMarked = [] ∧ ∃ n, h.gcNext = some n ∧
        (incrGc h).gcNext = if n = h.top then none else some (n + 1)) ∨
     (h.lists .gcMarked = [] ∧ h.gcNext = none ∧ (incrGc h).gcNext = none ∧
        (incrGc h).lists .gcMarked = [] ∧ (incrGc h).lists .gcUnmarked = [] ∧
        (h.lists .gcUnmarked = [] → ((incrGc h).lists .gcFree).length = (h.lists .gcFree).length - 2))) := by
  have g1 := g.freeOne.freeOne
  have hlive := incrGc_live g.live
  have htop := incrGc_top h
  have hl1 : ∀ {l}, l ≠ .gcFree → (freeOne (freeOne h)).lists l = h.lists l := fun hl => by
    rw [freeOne_lists _ hl, freeOne_lists _ hl]
  have hlen : ((freeOne (freeOne h)).lists .gcFree).length = (h.lists .gcFree).length - 2 := by
    have one : ∀ h : Heap, ((freeOne h).lists .gcFree).length = (h.lists .gcFree).length - 1 := by
      intro h
      unfold freeOne
      split
      · rename_i e; simp [e]
      · rename_i a t e; simp [e]
    rw [one, one]
    omega
  have s1 := freeOne_scal h
  have s2 := freeOne_scal (freeOne h)
  have hnx := s2.2.2.2.1.trans s1.2.2.2.1
  have htp := s2.2.2.2.2.1.trans s1.2.2.2.2.1
  have hal : ∀ x, (freeOne (freeOne h)).alive x = true → h.alive x = true :=
    fun x hx => s1.2.2.2.2.2 x (s2.2.2.2.2.2 x hx)
  have hcnt : cnt (freeOne (freeOne h)) = cnt h := by
    unfold cnt
    rw [s2.1, s2.2.1, s2.2.2.1, s1.1, s1.2.1, s1.2.2.1]
  obtain ⟨R, K, inv⟩ := g.inv
  have inv2 := (incrGc_inv inv).1
  obtain ⟨R1, K1, inv1⟩ := g1.inv
  unfold incrGc at hlive inv2 htop ⊢
  have hgm := hl1 (l := .gcMarked) (by simp)
  have hgu := hl1 (l := .gcUnmarked) (by simp)
  generalize freeOne (freeOne h) = k at g1 hnx htp hal hcnt inv1 hlive inv2 htop hlen hgm hgu ⊢
  dsimp only at hlive inv2 htop ⊢
  split at hlive
  · rename_i a t hm
    rw [hm] at hgm
    simp only [hm] at inv2 htop ⊢
    obtain ⟨ls, e, -, m⟩ := traverse_spec inv1 hm
    have ham : a ∈ k.lists .gcMarked := by rw [hm]; simp
    have hSa := g1.gm ham
    have hne := (inv1.kGen (inv1.kMarked ham) (.inl ham)).2.2
    refine ⟨⟨⟨R, inv2⟩, hlive, ?_, ?_, ?_, ?_, ?_⟩, ?_, htop, .inl ⟨by rw [← hgm]; simp, ?_, ?_⟩⟩
    · rw [e]; exact g1.cl
    · intro d x hx
      rw [e] at hx
      replace hx := (m x _).mp hx
      split at hx
      · rename_i e; exact e ▸ hSa
      · split at hx
        · cases hx
        · exact g1.al hx
    · intro d x hx
      rw [e] at hx
      replace hx := (m x _).mp hx
      split at hx
      · rename_i e; exact e ▸ hSa
      · split at hx
        · cases hx
        · exact g1.mkd hx
    · intro x hx
      rw [e] at hx
      replace hx := (m x _).mp hx
      split at hx
      · rename_i e; exact e ▸ hSa
      · split at hx
        · rename_i h1; exact g1.cl hSa h1.1
        · exact g1.gm hx
    · intro x hx
      rw [e] at hx
      exact g1.sv hx
    · intro x hx
      rw [e] at hx
      exact hal x hx
    · rw [e]; exact hnx
    · rw [e, ← hcnt]
      exact countP_upd_lt (List.mem_range.mpr (inv1.pl.fresh a (inv1.pl.alive ham))) hne
  · rename_i hm
    rw [hm] at hgm
    simp only [hm] at inv2 htop ⊢
    cases hn : k.gcNext with
    | some n =>
      obtain ⟨ls, e, -, m⟩ := endCycle_some_spec inv1 hm hn
      refine ⟨⟨⟨R, inv2⟩, hlive, ?_, ?_, ?_, ?_, ?_⟩, ?_, htop,
        .inr (.inl ⟨hgm.symm, n, by rw [← hnx, hn], ?_⟩)⟩
      · rw [e]; exact g1.cl
      · intro d x hx
        rw [e] at hx
        exact g1.al ((m x (.alloced d)).mp hx)
      · intro d x hx
        rw [e] at hx
        rcases ((m x (.marked d)).mp hx).2 with h1 | h1
        · exact g1.mkd h1
        · exact g1.sv h1.2
      · intro x hx
        rw [e] at hx
        rcases (m x .gcMarked).mp hx with h1 | h1
        · exact g1.mkd h1
        · exact g1.sv h1.2
      · intro x hx
        rw [e] at hx
        cases hx
      · intro x hx
        rw [e] at hx
        exact hal x hx
      · rw [e]
        show (if n = k.top then none else some (n + 1)) = _
        rw [htp]
    | none =>
      have e : endCycle k = moveAll k .gcFree .gcUnmarked := by
        have hi : k.interrupted = false := by
          cases hi : k.interrupted
          · rfl
          · exact absurd hn (inv1.isint hi)
        unfold endCycle resurrect
        have : (moveAll k .gcFree .gcUnmarked).save = [] := (inv1.nonint hi).1
        simp only [this, List.foldl_nil]
        have : (moveAll k .gcFree .gcUnmarked).gcNext = none := hn
        rw [this]
      have el : ∀ {l}, l ≠ .gcFree → l ≠ .gcUnmarked → (endCycle k).lists l = k.lists l := by
        intro l h1 h2
        rw [e]
        simp only [moveAll]
        rw [upd_ne _ _ h2, upd_ne _ _ h1]
      refine ⟨⟨⟨R, inv2⟩, hlive, ?_, ?_, ?_, ?_, ?_⟩, ?_, htop,
        .inr (.inr ⟨hgm.symm, by rw [← hnx, hn], ?_, ?_, ?_, ?_⟩)⟩
      · rw [e]; exact g1.cl
      · intro d x; rw [el (by simp) (by simp)]; exact g1.al
      · intro d x; rw [el (by simp) (by simp)]; exact g1.mkd
      · intro x; rw [el (by simp) (by simp)]; exact g1.gm
      · intro x; rw [e]; exact g1.sv
      · intro x hx
        rw [e] at hx
        exact hal x hx
      · rw [e]; exact hn
      · rw [el (by simp) (by simp)]; exact hm
      · rw [e]; simp [moveAll]
      · intro hu
        rw [e]
        simp only [moveAll]
        rw [upd_ne _ _ (by simp), upd_same, hgu, hu, List.nil_append, hlen]

/-- `n` steps of the collector. -/
def gcSteps : Nat → Heap → Heap
  | 0, h => h
  | n + 1, h => gcSteps n (incrGc h)

theorem gcSteps_add (m n : Nat) (h : Heap) : gcSteps (m + n) h = gcSteps n (gcSteps m h) := by
  induction m generalizing h with
  | zero => simp [gcSteps]
  | succ m ih => rw [Nat.succ_add]; exact ih _

theorem Good.steps {S} (n : Nat) : ∀ {h}, Good S h → Good S (gcSteps n h) := by
  induction n with
  | zero => intro h g; exact g
  | succ n ih => intro h g; exact ih (incr_cases g).1

theorem Good.alive {S} (n : Nat) : ∀ {h}, Good S h → ∀ x, (gcSteps n h).alive x = true → h.alive x = true := by
  induction n with
  | zero => intro h g x hx; exact hx
  | succ n ih => intro h g x hx; exact (incr_cases g).2.1 x (ih (incr_cases g).1 x hx)

/-- Frames still to be collected. -/
def toGo (h : Heap) : Nat := match h.gcNext with
  | none => 0
  | some n => h.top + 1 - n

theorem reach_last {S} : ∀ (f c : Nat) (h : Heap), Good S h → toGo h ≤ f → cnt h ≤ c →
    ∃ k, (gcSteps k h).gcNext = none ∧ (gcSteps k h).lists .gcMarked = [] := by
  intro f
  induction f with
  | zero =>
    intro c
    induction c with
    | zero =>
      intro h g hf hc
      obtain ⟨g', -, -, h1 | ⟨h1, n, h2, -⟩ | h1⟩ := incr_cases g
      · omega
      · have := (g.live.nx h2).2
        simp only [toGo, h2] at hf
        omega
      · exact ⟨0, h1.2.1, h1.1⟩
    | succ c ih =>
      intro h g hf hc
      obtain ⟨g', -, tp, h1 | ⟨h1, n, h2, -⟩ | h1⟩ := incr_cases g
      · obtain ⟨k, hk⟩ := ih (incrGc h) g' (by simpa only [toGo, h1.2.1, tp] using hf) (by omega)
        exact ⟨k + 1, hk⟩
      · have := (g.live.nx h2).2
        simp only [toGo, h2] at hf
        omega
      · exact ⟨0, h1.2.1, h1.1⟩
  | succ f ihf =>
    intro c
    induction c with
    | zero =>
      intro h g hf hc
      obtain ⟨g', -, tp, h1 | ⟨h1, n, h2, h3⟩ | h1⟩ := incr_cases g
      · omega
      · obtain ⟨k, hk⟩ := ihf _ (incrGc h) g' (by
          have := (g.live.nx h2).2
          simp only [toGo, h2, h3, tp] at hf ⊢
          split
          · omega
          · rename_i e
            split at e
            · cases e
            · cases e; omega) (Nat.le_refl _)
        exact ⟨k + 1, hk⟩
      · exact ⟨0, h1.2.1, h1.1⟩
    | succ c ih =>
      intro h g hf hc
      obtain ⟨g', -, tp, h1 | ⟨h1, n, h2, h3⟩ | h1⟩ := incr_cases g
      · obtain ⟨k, hk⟩ := ih (incrGc h) g' (by simpa only [toGo, h1.2.1, tp] using hf) (by omega)
        exact ⟨k + 1, hk⟩
      · obtain ⟨k, hk⟩ := ihf _ (incrGc h) g' (by
          have := (g.live.nx h2).2
          simp only [toGo, h2, h3, tp] at hf ⊢
          split
          · omega
          · rename_i e
            split at e
            · cases e
            · cases e; omega) (Nat.le_refl _)
        exact ⟨k + 1, hk⟩
      · exact ⟨0, h1.2.1, h1.1⟩

theorem drain {S} : ∀ (m : Nat) (h : Heap), Good S h → h.gcNext = none → h.lists .gcMarked = [] →
    h.lists .gcUnmarked = [] → (h.lists .gcFree).length ≤ m →
    ∃ k, ∀ x, (gcSteps k h).alive x = true → S x := by
  intro m
  induction m with
  | zero =>
    intro h g hn hm hu hf
    refine ⟨0, fun x hx => ?_⟩
    obtain ⟨R, K, inv⟩ := g.inv
    obtain ⟨l, hl⟩ := inv.pl.placed x hx
    have hno : ∀ d, ¬ (x ∈ h.lists (.marked d) ∨ x ∈ h.lists (.unmarked d)) := by
      intro d hd
      obtain ⟨n, h1, _⟩ := g.live.p hd
      rw [hn] at h1
      cases h1
    cases l with
    | alloced d => exact g.al hl
    | marked d => exact absurd (.inl hl) (hno d)
    | unmarked d => exact absurd (.inr hl) (hno d)
    | gcMarked => exact g.gm hl
    | gcUnmarked => rw [hu] at hl; cases hl
    | gcFree =>
      have : h.lists .gcFree = [] := List.length_eq_zero_iff.mp (by omega)
      rw [this] at hl
      cases hl
  | succ m ih =>
    intro h g hn hm hu hf
    obtain ⟨g', -, tp, h1 | ⟨h1, n, h2, h3⟩ | h1⟩ := incr_cases g
    · exact absurd hm h1.1
    · rw [hn] at h2; cases h2
    · obtain ⟨-, -, h2, h3, h4, h5⟩ := h1
      obtain ⟨k, hk⟩ := ih (incrGc h) g' h2 h3 h4 (by rw [h5 hu]; omega)
      exact ⟨k + 1, hk⟩

theorem good_settles {S h} (g : Good S h) : ∃ N, ∀ n, N ≤ n → ∀ x, (gcSteps n h).alive x = true → S x := by
  obtain ⟨k, h1, h2⟩ := reach_last _ _ h g (Nat.le_refl _) (Nat.le_refl _)
  have g1 := g.steps k
  obtain ⟨g2, -, -, h3 | ⟨_, n, h3, _⟩ | ⟨-, -, h3, h4, h5, -⟩⟩ := incr_cases g1
  · exact absurd h2 h3.1
  · rw [h1] at h3; cases h3
  · obtain ⟨j, hj⟩ := drain _ _ g2 h3 h4 h5 (Nat.le_refl _)
    refine ⟨k + 1 + j, fun n hn x hx => hj x ?_⟩
    obtain ⟨r, rfl⟩ := Nat.exists_eq_add_of_le hn
    have e1 : gcSteps (k + 1 + j + r) h = gcSteps r (gcSteps j (incrGc (gcSteps k h))) := by
      rw [gcSteps_add, gcSteps_add, gcSteps_add]
      rfl
    rw [e1] at hx
    exact (g2.steps j).alive r x hx

/-- What the collector takes as given when it starts from `s`: the values handed to the client in
each frame, the objects of each frame since it was last compacted, and the objects the collection
in progress has already marked. -/
def Anchor (s : Sys) (a : Addr) : Prop :=
  (∃ d, d ≤ s.heap.top ∧ (.gc a ∈ s.roots d ∨ a ∈ s.heap.lists (.alloced d))) ∨
    a ∈ s.heap.lists .gcMarked

theorem history_good {s : Sys} (hs : History PopsMarkingFrame s) :
    Good (FieldReach s.heap (Anchor s)) s.heap := by
  obtain ⟨⟨K, inv⟩, _⟩ := history_inv hs
  have ab : ∀ {d x}, x ∈ s.heap.lists (.alloced d) ∨ x ∈ s.heap.lists (.marked d) → d ≤ s.heap.top := by
    intro d x hx
    by_contra hd
    have := inv.pl.above d (by omega)
    rw [this.1, this.2.1] at hx
    simp at hx
  exact ⟨⟨_, _, inv⟩, history_live hs, fun h1 h2 => .step h1 h2,
    fun h1 => .root (.inl ⟨_, ab (.inl h1), .inr h1⟩),
    fun h1 => .root (.inl ⟨_, ab (.inr h1), .inl (inv.markedRoot h1)⟩), fun h1 => .root (.inr h1),
    fun h1 => .root (.inl ⟨_, inv.frameTop, .inl (inv.saveRoot h1)⟩)⟩

/-- C11, first part: FbleValueFullGc terminates. -/
theorem C11_terminates {s : Sys} (hs : History PopsMarkingFrame s) : ∃ h', FullGc s.heap h' := by
  have g := history_good hs
  obtain ⟨k, h1, -⟩ := reach_last _ _ _ g (Nat.le_refl _) (Nat.le_refl _)
  have hd : fullGcDone (gcSteps k s.heap) = true := by
    have L := (g.steps k).live
    have hno : ∀ d x, ¬ (x ∈ (gcSteps k s.heap).lists (.marked d) ∨ x ∈ (gcSteps k s.heap).lists (.unmarked d)) := by
      intro d x hd
      obtain ⟨n, h2, _⟩ := L.p hd
      rw [h1] at h2
      cases h2
    simp only [fullGcDone, h1, Option.isNone_none, Bool.true_and, Bool.and_eq_true, List.isEmpty_iff]
    exact ⟨List.eq_nil_iff_forall_not_mem.mpr fun x hx => hno _ x (.inl hx),
      List.eq_nil_iff_forall_not_mem.mpr fun x hx => hno _ x (.inr hx)⟩
  clear h1
  generalize s.heap = h at hd
  induction k generalizing h with
  | zero => exact ⟨h, .done hd⟩
  | succ k ih =>
    cases hc : fullGcDone h with
    | true => exact ⟨h, .done hc⟩
    | false =>
      obtain ⟨h', hh⟩ := ih _ hd
      exact ⟨h', .step hc hh⟩

/-- C11, second part: from any such history, once the collector has made enough steps, every
object that is left is reachable from the values handed out in some frame, the objects of a frame
since it was last compacted, or what the collection in progress had already marked. -/
theorem C11_reclaims {s : Sys} (hs : History PopsMarkingFrame s) :
    ∃ N, ∀ n, N ≤ n → ∀ x, (gcSteps n s.heap).alive x = true → FieldReach s.heap (Anchor s) x :=
  good_settles (history_good hs)

/-- The garbage of `C11_violated` is reclaimed by further steps. -/
example : ∃ s, History PopsMarkingFrame s ∧ s.heap.alive 0 = true ∧
    ∃ N, ∀ n, N ≤ n → (gcSteps n s.heap).alive 0 = false := by
  have h : ((run true start leakOps).map fun s => (s.heap.top, s.heap.alive 0 &&
      (s.roots 0).isEmpty && (s.heap.lists (.alloced 0)).isEmpty && (s.roots 1).isEmpty &&
      (s.heap.lists (.alloced 1)).isEmpty && (s.heap.lists .gcMarked).isEmpty)) = some (1, true) := by
    decide +kernel
  cases hr : run true start leakOps with
  | none => rw [hr] at h; simp at h
  | some s =>
    rw [hr] at h
    simp only [Option.map_some, Option.some.injEq, Prod.mk.injEq, Bool.and_eq_true,
      List.isEmpty_iff] at h
    obtain ⟨ht, ⟨⟨⟨⟨ha, r0⟩, a0⟩, r1⟩, a1⟩, gm⟩ := h
    have hs := run_history hr .start
    refine ⟨s, hs, ha, ?_⟩
    obtain ⟨N, hN⟩ := C11_reclaims hs
    refine ⟨N, fun n hn => ?_⟩
    cases hx : (gcSteps n s.heap).alive 0 with
    | false => rfl
    | true =>
      have hno : ∀ x, ¬ Anchor s x := by
        rintro x (⟨d, hd, hx⟩ | hx)
        · rw [ht] at hd
          have : d = 0 ∨ d = 1 := by omega
          rcases this with rfl | rfl
          · simp [r0, a0] at hx
          · simp [r1, a1] at hx
        · rw [gm] at hx
          cases hx
      have : ∀ {x}, FieldReach s.heap (Anchor s) x → False := by
        intro x hx
        induction hx with
        | root h => exact hno _ h
        | step _ _ ih => exact ih
      exact (this (hN n hn 0 hx)).elim

end Verif.Gc
