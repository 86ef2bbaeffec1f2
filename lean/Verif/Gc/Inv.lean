import Verif.Gc.Spec
import Mathlib.Tactic.Common
/-
The invariant of the collector, used only in proofs.
-/
namespace Verif.Gc

@[simp] theorem upd_same {α β : Type} [DecidableEq α] (f : α → β) (a : α) (b : β) :
    upd f a b a = b := by simp [upd]

theorem upd_ne {α β : Type} [DecidableEq α] (f : α → β) {a x : α} (b : β) (h : x ≠ a) :
    upd f a b x = f x := by simp [upd, h]

/-- `w` is stored in `v`, or is the GC copy of the stack object `v`. -/
def Edge (f : Addr → List Val) (sf : Nat → List Val) (sg : Nat → Option Addr) (v w : Val) : Prop :=
  match v with
  | .gc a => w ∈ f a ∧ w ≠ .uninit
  | .stk s => w ∈ sf s ∨ ∃ a, sg s = some a ∧ w = .gc a
  | _ => False

/-- Reachable from the roots. -/
inductive Acc' (f : Addr → List Val) (sf : Nat → List Val) (sg : Nat → Option Addr)
    (rt : Val → Prop) : Val → Prop where
  | imm {n} : Acc' f sf sg rt (.imm n)
  | root {v} : rt v → Acc' f sf sg rt v
  | step {v w} : Acc' f sf sg rt v → Edge f sf sg v w → Acc' f sf sg rt w

def Rt (top : Nat) (R : Nat → List Val) (v : Val) : Prop := ∃ d, d ≤ top ∧ v ∈ R d

abbrev Acc (h : Heap) (R : Nat → List Val) : Val → Prop :=
  Acc' h.fields h.sfields h.sgc (Rt h.top R)

theorem Acc'.mono {f sf sg rt f' sf' sg' rt'} (hr : ∀ v, rt v → Acc' f' sf' sg' rt' v)
    (he : ∀ v w, Acc' f' sf' sg' rt' v → Edge f sf sg v w → Acc' f' sf' sg' rt' w)
    {v} (h : Acc' f sf sg rt v) : Acc' f' sf' sg' rt' v := by
  induction h with
  | imm => exact .imm
  | root h => exact hr _ h
  | step _ he' ih => exact he _ _ ih he'

/-- Paths from `G` through `W`. -/
inductive Path (f : Addr → List Val) (G W : Addr → Prop) : Addr → Prop where
  | base {a} : G a → Path f G W a
  | step {a b} : Path f G W a → .gc b ∈ f a → W b → Path f G W b

theorem Path.mono {f f' G W G' W'} (hG : ∀ a, G a → Path f' G' W' a)
    (hW : ∀ a, W a → Path f' G' W' a ∨ W' a) (hf : ∀ a, G a ∨ W a → f' a = f a) {a}
    (h : Path f G W a) : Path f' G' W' a := by
  have key : (G a ∨ W a) ∧ Path f' G' W' a := by
    induction h with
    | base h => exact ⟨.inl h, hG _ h⟩
    | @step a b h hb hw ih =>
      refine ⟨.inr hw, ?_⟩
      rcases hW _ hw with h' | h'
      · exact h'
      · exact .step ih.2 (by rw [hf _ ih.1]; exact hb) h'
  exact key.2

theorem Path.mem {f G W a} (h : Path f G W a) : G a ∨ W a := by
  cases h with
  | base h => exact .inl h
  | step _ _ h => exact .inr h

abbrev Lists := LId → List Addr

def InGc (ls : Lists) (a : Addr) : Prop := a ∈ ls .gcMarked ∨ a ∈ ls .gcUnmarked

/-- The object belongs to the frame at depth `d`; the objects the collector is working on belong
to the frame it works on. -/
def Own (ls : Lists) (gf : Nat) (a : Addr) (d : Nat) : Prop :=
  a ∈ ls (.alloced d) ∨ a ∈ ls (.marked d) ∨ a ∈ ls (.unmarked d) ∨ (d = gf ∧ InGc ls a)

def VOwn (ls : Lists) (gf : Nat) (sf : Nat → Nat) (v : Val) (d : Nat) : Prop :=
  match v with
  | .gc a => Own ls gf a d
  | .stk s => sf s = d
  | _ => False

/-- White objects of frame `d`: not yet seen. -/
def Wh (ls : Lists) (int : Bool) (gf d : Nat) (a : Addr) : Prop :=
  a ∈ ls (.unmarked d) ∨ (int = true ∧ d = gf ∧ InGc ls a)

/-- Grey objects of frame `d`: seen, not yet traversed. -/
def Gr (ls : Lists) (int : Bool) (gf : Nat) (save : List Addr) (d : Nat) (a : Addr) : Prop :=
  a ∈ ls (.marked d) ∨ (int = true ∧ d = gf ∧ a ∈ save)

def NotStale (h : Heap) : Prop :=
  h.gcMax ≤ h.maxGen h.gcFrame ∧
  (h.interrupted = true → h.genF h.gcFrame < h.gcMin ∨ h.gcMax ≤ h.genF h.gcFrame)

/-- The collector's generations are out of date, but nothing is left to traverse. -/
def Stale (h : Heap) (R : Nat → List Val) : Prop :=
  h.interrupted = true ∧ h.lists .gcMarked = [] ∧ ∀ a, Acc h R (.gc a) → h.gen a < h.gcMin

/-- Which object is where. -/
structure Placed (h : Heap) : Prop where
  nodup : ∀ l, (h.lists l).Nodup
  disj : ∀ {l l' x}, x ∈ h.lists l → x ∈ h.lists l' → l = l'
  alive : ∀ {l x}, x ∈ h.lists l → h.alive x = true
  placed : ∀ x, h.alive x = true → ∃ l, x ∈ h.lists l
  fresh : ∀ x, h.alive x = true → x < h.nextA
  book : h.freed.Nodup ∧ ∀ x, x ∈ h.freed ↔ x < h.nextA ∧ h.alive x = false
  above : ∀ d, h.top < d → h.lists (.alloced d) = [] ∧ h.lists (.marked d) = [] ∧
    h.lists (.unmarked d) = []

structure Inv (h : Heap) (R : Nat → List Val) (uc : List Addr) (K : Addr → Prop) : Prop where
  pl : Placed h
  gens1 : ∀ d, d ≤ h.top → h.minGen d ≤ h.genF d ∧ h.genF d < h.maxGen d
  gens2 : ∀ d, d < h.top → h.maxGen d ≤ h.minGen (d + 1)
  allocGen : ∀ {d x}, x ∈ h.lists (.alloced d) → h.gen x = h.genF d
  frameTop : h.gcFrame ≤ h.top
  next : ∀ n, h.gcNext = some n → h.gcFrame ≤ n ∧ n ≤ h.top
  nonint : h.interrupted = false → h.save = [] ∧ h.gcGen = h.genF h.gcFrame
  isint : h.interrupted = true → h.gcNext ≠ none
  gcg : h.gcMin ≤ h.gcGen ∧ h.gcGen < h.gcMax ∧ h.minGen h.gcFrame ≤ h.gcMin
  stale : NotStale h ∨ Stale h R
  accK : ∀ {a}, Acc h R (.gc a) → K a
  accUninit : ¬ Acc h R .uninit
  accStk : ∀ {s}, Acc h R (.stk s) → h.salive s = true
  kClosed : ∀ {a b}, K a → .gc b ∈ h.fields a → K b
  kLive : ∀ {a}, K a → h.alive a = true ∧ a ∉ h.lists .gcFree
  kMarked : ∀ {a}, a ∈ h.lists .gcMarked → K a
  kWhite : ∀ {a}, K a → a ∈ h.lists .gcUnmarked →
    Path h.fields (· ∈ h.lists .gcMarked) (· ∈ h.lists .gcUnmarked) a
  kGen : ∀ {a}, K a → InGc h.lists a → h.gcMin ≤ h.gen a ∧ h.gen a < h.gcMax ∧ h.gen a ≠ h.gcGen
  kEdge : ∀ {a b}, K a → InGc h.lists a → .gc b ∈ h.fields a →
    InGc h.lists b ∨ h.gen b = h.gcGen ∨ h.gen b < h.gcMin
  accGen : ∀ {a d}, Acc h R (.gc a) → Own h.lists h.gcFrame a d →
    h.minGen d ≤ h.gen a ∧ h.gen a < h.maxGen d
  accNe : ∀ {a d}, Acc h R (.gc a) → a ∈ h.lists (.marked d) ∨ a ∈ h.lists (.unmarked d) →
    h.gen a ≠ h.genF d
  rng : ∀ {a}, Acc h R (.gc a) → Own h.lists h.gcFrame a h.gcFrame → ¬ InGc h.lists a →
    h.gen a < h.gcMin ∨ h.gen a = h.gcGen ∨ h.gcMax ≤ h.gen a
  edgeDepth : ∀ {v w d e}, Acc h R v → Edge h.fields h.sfields h.sgc v w →
    VOwn h.lists h.gcFrame h.sframe v d → VOwn h.lists h.gcFrame h.sframe w e → e ≤ d
  rootDepth : ∀ {v d e}, d ≤ h.top → v ∈ R d → VOwn h.lists h.gcFrame h.sframe v e → e ≤ d
  markedRoot : ∀ {a d}, a ∈ h.lists (.marked d) → .gc a ∈ R d
  saveRoot : ∀ {a}, a ∈ h.save → .gc a ∈ R h.gcFrame
  saveAt : ∀ {a}, a ∈ h.save → a ∈ h.lists .gcMarked ∨ a ∈ h.lists (.unmarked h.gcFrame)
  white : ∀ {d a}, d ≤ h.top → Acc h R (.gc a) → Wh h.lists h.interrupted h.gcFrame d a →
    Path h.fields (Gr h.lists h.interrupted h.gcFrame h.save d)
      (Wh h.lists h.interrupted h.gcFrame d) a
  clean : ∀ {a}, h.alive a = true → a ∉ uc → ∀ f ∈ h.fields a, f ≠ .uninit ∧ ∀ s, f ≠ .stk s
  ucAlloc : ∀ {a}, a ∈ uc → ∃ d, d ≤ h.top ∧ a ∈ h.lists (.alloced d)
  ucStk : ∀ {a}, h.alive a = true → ∀ s, .stk s ∉ h.fields a
  stack : ∀ {s}, h.salive s = true → h.sframe s ≤ h.top ∧ .stk s ∈ R (h.sframe s) ∧ s < h.nextS
  stkLt : ∀ {s s'}, h.salive s = true → .stk s' ∈ h.sfields s → s' < s
  noub : h.ub = false

/-! ### Basic facts -/

theorem touch_alive {h : Heap} {a : Addr} (ha : h.alive a = true) : touch h a = h := by
  cases h
  simp_all [touch]

def mv (ls : Lists) (dst : LId) (a : Addr) : Lists := fun l =>
  if l = dst then a :: (ls l).filter (· != a) else (ls l).filter (· != a)

theorem moveTo_alive {h : Heap} {a : Addr} (dst : LId) (ha : h.alive a = true) :
    moveTo h dst a = { h with lists := mv h.lists dst a } := by
  simp only [moveTo, touch_alive ha]
  rfl

theorem mem_mv {ls : Lists} {dst : LId} {a x : Addr} {l : LId} :
    x ∈ mv ls dst a l ↔ if x = a then l = dst else x ∈ ls l := by
  unfold mv
  split <;> rename_i h
  · subst h
    by_cases hx : x = a <;> simp [hx]
  · by_cases hx : x = a <;> simp [hx, h]

theorem nodup_mv {ls : Lists} {dst : LId} {a : Addr} (h : ∀ l, (ls l).Nodup) (l : LId) :
    (mv ls dst a l).Nodup := by
  unfold mv
  split
  · exact List.nodup_cons.mpr ⟨by simp, (h l).filter _⟩
  · exact (h l).filter _

theorem mem_moveAll {ls : Lists} {dst src : LId} (hne : dst ≠ src) {x : Addr} {l : LId} :
    x ∈ upd (upd ls dst (ls src ++ ls dst)) src [] l ↔
      l ≠ src ∧ (x ∈ ls l ∨ (l = dst ∧ x ∈ ls src)) := by
  unfold upd
  by_cases h1 : l = src
  · simp [h1]
  · by_cases h2 : l = dst
    · subst h2
      simp [h1]
      tauto
    · simp [h1, h2]

theorem Own.unique {h : Heap} (hp : Placed h) {a d e} (h1 : Own h.lists h.gcFrame a d)
    (h2 : Own h.lists h.gcFrame a e) : d = e := by
  rcases h1 with h1 | h1 | h1 | ⟨hd, h1 | h1⟩ <;> rcases h2 with h2 | h2 | h2 | ⟨he, h2 | h2⟩ <;>
    first
    | (rw [hd, he])
    | (have this := hp.disj h1 h2; simp at this <;> exact this)

namespace Inv
variable {h : Heap} {R : Nat → List Val} {uc : List Addr} {K : Addr → Prop}

theorem chain (inv : Inv h R uc K) {d e} (hde : d < e) (he : e ≤ h.top) :
    h.maxGen d ≤ h.minGen e := by
  induction e with
  | zero => omega
  | succ e ih =>
    have h2 := inv.gens2 e (by omega)
    by_cases hd : d = e
    · rw [hd]; exact h2
    · have := ih (by omega) (by omega)
      have h1 := inv.gens1 e (by omega)
      omega

theorem ownTop (inv : Inv h R uc K) {a d} (ho : Own h.lists h.gcFrame a d) : d ≤ h.top := by
  by_contra hd
  have := inv.pl.above d (by omega)
  rcases ho with h1 | h1 | h1 | ⟨rfl, h1⟩
  · simp [this.1] at h1
  · simp [this.2.1] at h1
  · simp [this.2.2] at h1
  · exact hd inv.frameTop

theorem accLive (inv : Inv h R uc K) {a} (ha : Acc h R (.gc a)) : h.alive a = true :=
  (inv.kLive (inv.accK ha)).1

theorem hasOwn (inv : Inv h R uc K) {a} (ha : K a) : ∃ d, d ≤ h.top ∧ Own h.lists h.gcFrame a d := by
  obtain ⟨hl, hf⟩ := inv.kLive ha
  obtain ⟨l, hl⟩ := inv.pl.placed a hl
  have : ∃ d, Own h.lists h.gcFrame a d := by
    match l, hl with
    | .alloced d, hl => exact ⟨d, .inl hl⟩
    | .marked d, hl => exact ⟨d, .inr (.inl hl)⟩
    | .unmarked d, hl => exact ⟨d, .inr (.inr (.inl hl))⟩
    | .gcMarked, hl => exact ⟨_, .inr (.inr (.inr ⟨rfl, .inl hl⟩))⟩
    | .gcUnmarked, hl => exact ⟨_, .inr (.inr (.inr ⟨rfl, .inr hl⟩))⟩
    | .gcFree, hl => exact absurd hl hf
  obtain ⟨d, hd⟩ := this
  exact ⟨d, inv.ownTop hd, hd⟩

/-- Nothing that must be kept is white once there is nothing left to traverse. -/
theorem no_white (inv : Inv h R uc K) (hm : h.lists .gcMarked = []) {a} (ha : K a) :
    a ∉ h.lists .gcUnmarked := by
  intro hu
  have := inv.kWhite ha hu
  clear hu ha
  rw [hm] at this
  induction this with
  | base h => simp at h
  | step _ _ _ ih => exact ih

end Inv

/-! ### Freeing -/

theorem freeOne_inv {h R uc K} (inv : Inv h R uc K) : Inv (freeOne h) R uc K := by
  unfold freeOne
  split
  · exact inv
  · rename_i a t hl
    have hal : h.alive a = true := inv.pl.alive (l := .gcFree) (by rw [hl]; simp)
    have haf : a ∈ h.lists .gcFree := by rw [hl]; simp
    have hnd := inv.pl.nodup .gcFree
    rw [hl, List.nodup_cons] at hnd
    rw [touch_alive hal]
    have hne : ∀ l, l ≠ .gcFree → upd h.lists .gcFree t l = h.lists l := fun l hl => upd_ne _ _ hl
    have hmem : ∀ {l x}, x ∈ upd h.lists .gcFree t l → x ∈ h.lists l ∧ x ≠ a := by
      intro l x hx
      by_cases hc : l = .gcFree
      · subst hc
        rw [upd_same] at hx
        exact ⟨by rw [hl]; simp [hx], fun e => hnd.1 (e ▸ hx)⟩
      · rw [hne l hc] at hx
        exact ⟨hx, fun e => hc (inv.pl.disj hx (e ▸ haf))⟩
    have hKa : ¬ K a := fun hk => (inv.kLive hk).2 haf
    have hup : ∀ {x}, upd h.alive a false x = true → h.alive x = true ∧ x ≠ a := by
      intro x hx
      by_cases hc : x = a
      · subst hc; simp at hx
      · rw [upd_ne _ _ hc] at hx; exact ⟨hx, hc⟩
    have hgm := hne .gcMarked (by simp)
    have hgu := hne .gcUnmarked (by simp)
    have hInGc : ∀ x, InGc (upd h.lists .gcFree t) x ↔ InGc h.lists x := by
      intro x; unfold InGc; rw [hgm, hgu]
    have hOwn : ∀ x d, Own (upd h.lists .gcFree t) h.gcFrame x d ↔ Own h.lists h.gcFrame x d := by
      intro x d; unfold Own; rw [hne (.alloced d) (by simp), hne (.marked d) (by simp),
        hne (.unmarked d) (by simp), hInGc]
    have hVOwn : ∀ v d, VOwn (upd h.lists .gcFree t) h.gcFrame h.sframe v d ↔
        VOwn h.lists h.gcFrame h.sframe v d := by
      intro v d
      cases v <;> simp only [VOwn]
      exact hOwn _ _
    have hWh : Wh (upd h.lists .gcFree t) h.interrupted h.gcFrame = Wh h.lists h.interrupted h.gcFrame := by
      funext d x; unfold Wh; rw [hne (.unmarked d) (by simp), hInGc]
    have hGr : Gr (upd h.lists .gcFree t) h.interrupted h.gcFrame h.save =
        Gr h.lists h.interrupted h.gcFrame h.save := by
      funext d x; unfold Gr; rw [hne (.marked d) (by simp)]
    exact {
      pl := {
        nodup := by
          intro l
          show (upd h.lists .gcFree t l).Nodup
          by_cases hc : l = .gcFree
          · subst hc; rw [upd_same]; exact hnd.2
          · rw [hne l hc]; exact inv.pl.nodup l
        disj := fun h1 h2 => inv.pl.disj (hmem h1).1 (hmem h2).1
        alive := by
          intro l x hx
          obtain ⟨h1, h2⟩ := hmem hx
          show upd h.alive a false x = true
          rw [upd_ne _ _ h2]
          exact inv.pl.alive h1
        placed := by
          intro x hx
          obtain ⟨h1, h2⟩ := hup hx
          obtain ⟨l, hx⟩ := inv.pl.placed x h1
          refine ⟨l, ?_⟩
          show x ∈ upd h.lists .gcFree t l
          by_cases hc : l = .gcFree
          · subst hc; rw [upd_same]
            rw [hl] at hx
            rcases List.mem_cons.mp hx with hx | hx
            · exact absurd hx h2
            · exact hx
          · rw [hne l hc]; exact hx
        fresh := fun x hx => inv.pl.fresh x (hup hx).1
        book := by
          have hb := inv.pl.book
          refine ⟨List.nodup_cons.mpr ⟨fun hc => ?_, hb.1⟩, fun x => ?_⟩
          · have := ((hb.2 a).mp hc).2
            rw [hal] at this
            cases this
          · show x ∈ a :: h.freed ↔ x < h.nextA ∧ upd h.alive a false x = false
            by_cases hxa : x = a
            · subst hxa
              simp [inv.pl.fresh x hal]
            · rw [upd_ne _ _ hxa, List.mem_cons, ← hb.2 x]
              simp [hxa]
        above := by
          intro d hd
          have := inv.pl.above d hd
          exact ⟨(hne (.alloced d) (by simp)).trans this.1, (hne (.marked d) (by simp)).trans this.2.1,
            (hne (.unmarked d) (by simp)).trans this.2.2⟩ }
      gens1 := inv.gens1
      gens2 := inv.gens2
      allocGen := fun hx => inv.allocGen (hmem hx).1
      frameTop := inv.frameTop
      next := inv.next
      nonint := inv.nonint
      isint := inv.isint
      gcg := inv.gcg
      stale := by
        rcases inv.stale with h1 | ⟨h1, h2, h3⟩
        · exact .inl h1
        · exact .inr ⟨h1, by rw [← h2]; exact hgm, h3⟩
      accK := inv.accK
      accUninit := inv.accUninit
      accStk := inv.accStk
      kClosed := inv.kClosed
      kLive := by
        intro x hx
        obtain ⟨h1, h2⟩ := inv.kLive hx
        have hxa : x ≠ a := fun e => hKa (e ▸ hx)
        refine ⟨by show upd h.alive a false x = true; rw [upd_ne _ _ hxa]; exact h1, ?_⟩
        intro hf
        exact h2 (hmem hf).1
      kMarked := fun hx => inv.kMarked (hmem hx).1
      kWhite := by
        intro x hk hx
        show Path h.fields (· ∈ upd h.lists .gcFree t .gcMarked) (· ∈ upd h.lists .gcFree t .gcUnmarked) x
        rw [hgm, hgu]
        exact inv.kWhite hk (hmem hx).1
      kGen := fun hk hg => inv.kGen hk ((hInGc _).mp hg)
      kEdge := by
        intro x y hk hg hy
        have := inv.kEdge hk ((hInGc _).mp hg) hy
        rwa [← hInGc] at this
      accGen := fun ha ho => inv.accGen ha ((hOwn _ _).mp ho)
      accNe := fun ha ho => inv.accNe ha (ho.imp (fun h => (hmem h).1) (fun h => (hmem h).1))
      rng := fun ha ho hg => inv.rng ha ((hOwn _ _).mp ho) (fun h => hg ((hInGc _).mpr h))
      edgeDepth := fun ha he h1 h2 => inv.edgeDepth ha he ((hVOwn _ _).mp h1) ((hVOwn _ _).mp h2)
      rootDepth := fun hd hv h1 => inv.rootDepth hd hv ((hVOwn _ _).mp h1)
      markedRoot := fun hx => inv.markedRoot (hmem hx).1
      saveRoot := inv.saveRoot
      saveAt := by
        intro x hx
        show x ∈ upd h.lists .gcFree t .gcMarked ∨ x ∈ upd h.lists .gcFree t (.unmarked h.gcFrame)
        rw [hgm, hne (.unmarked h.gcFrame) (by simp)]
        exact inv.saveAt hx
      white := by
        intro d x hd ha hw
        show Path h.fields (Gr (upd h.lists .gcFree t) h.interrupted h.gcFrame h.save d)
          (Wh (upd h.lists .gcFree t) h.interrupted h.gcFrame d) x
        have hw : Wh (upd h.lists .gcFree t) h.interrupted h.gcFrame d x := hw
        rw [hWh] at hw ⊢
        rw [hGr]
        exact inv.white hd ha hw
      clean := fun hx => inv.clean (hup hx).1
      ucAlloc := by
        intro x hx
        obtain ⟨d, hd, hx⟩ := inv.ucAlloc hx
        exact ⟨d, hd, by show x ∈ upd h.lists .gcFree t (.alloced d); rw [hne _ (by simp)]; exact hx⟩
      ucStk := fun hx => inv.ucStk (hup hx).1
      stack := inv.stack
      stkLt := inv.stkLt
      noub := inv.noub }

/-- `h'` extends `h`: frames and stack objects are the same, objects keep their fields and
owners, and nothing stops being accessible. -/
structure Ext (h h' : Heap) (R : Nat → List Val) : Prop where
  top : h'.top = h.top
  merges : h'.merges = h.merges
  minGen : h'.minGen = h.minGen
  genF : h'.genF = h.genF
  maxGen : h'.maxGen = h.maxGen
  slabel : h'.slabel = h.slabel
  sfields : h'.sfields = h.sfields
  sframe : h'.sframe = h.sframe
  salive : h'.salive = h.salive
  nextS : h'.nextS = h.nextS
  nextA : h.nextA ≤ h'.nextA
  fields : ∀ a, a < h.nextA → h'.fields a = h.fields a
  label : ∀ a, a < h.nextA → h'.label a = h.label a
  sgc : ∀ s a, h.sgc s = some a → h'.sgc s = some a
  alloced : ∀ {d x}, x ∈ h.lists (.alloced d) → x ∈ h'.lists (.alloced d)
  own : ∀ {a d}, Acc h R (.gc a) → Own h.lists h.gcFrame a d → Own h'.lists h'.gcFrame a d
  acc : ∀ {v}, Acc h R v → Acc h' R v

theorem Ext.refl (h R) : Ext h h R :=
  ⟨rfl, rfl, rfl, rfl, rfl, rfl, rfl, rfl, rfl, rfl, Nat.le_refl _, fun _ _ => rfl, fun _ _ => rfl,
    fun _ _ h => h, fun h => h, fun _ h => h, fun h => h⟩

theorem Ext.trans {h1 h2 h3 R} (a : Ext h1 h2 R) (b : Ext h2 h3 R) : Ext h1 h3 R where
  top := b.top.trans a.top
  merges := b.merges.trans a.merges
  minGen := b.minGen.trans a.minGen
  genF := b.genF.trans a.genF
  maxGen := b.maxGen.trans a.maxGen
  slabel := b.slabel.trans a.slabel
  sfields := b.sfields.trans a.sfields
  sframe := b.sframe.trans a.sframe
  salive := b.salive.trans a.salive
  nextS := b.nextS.trans a.nextS
  nextA := Nat.le_trans a.nextA b.nextA
  fields := fun x hx => (b.fields x (Nat.lt_of_lt_of_le hx a.nextA)).trans (a.fields x hx)
  label := fun x hx => (b.label x (Nat.lt_of_lt_of_le hx a.nextA)).trans (a.label x hx)
  sgc := fun s x hx => b.sgc s x (a.sgc s x hx)
  alloced := fun hx => b.alloced (a.alloced hx)
  own := fun ha ho => b.own (a.acc ha) (a.own ha ho)
  acc := fun ha => b.acc (a.acc ha)

end Verif.Gc
