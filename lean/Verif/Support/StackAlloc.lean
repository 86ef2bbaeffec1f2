import Mathlib.Tactic.Common
import Batteries.Data.List.Perm
/-
The stack memory of the value heap, /repo/lib/value.c: C12.

An address is a chunk and an offset in it.  Chunk 0 is the initial stack allocation.
SIMPLIFIED: chunks the allocator returns are new ones; sizes and offsets are unbounded numbers; only
the parts of frame and heap that have to do with stack memory are here (the rest is in Verif.Gc).
-/
namespace Verif.Support.StackAlloc

/-- CHUNK_SIZE, value.c:359. -/
abbrev chunkSize : Nat := 1048576

/-- sizeof(Chunk), value.c:365-367: one pointer. -/
abbrev header : Nat := 8

/-- sizeof(Frame), value.c:403-419: fourteen words. -/
abbrev frameSize : Nat := 112

/-- A piece of memory. -/
structure Block where
  chunk : Nat
  off : Nat
  size : Nat
deriving DecidableEq

/-- struct Frame, value.c:403-419: where the record itself is, the chunk that `top` and `max` point
into, and the fields merges, top, max, chunks. -/
structure Frame where
  chunk : Nat
  off : Nat
  cur : Nat
  top : Nat
  max : Nat
  chunks : List Nat
  merges : Nat
deriving DecidableEq

/-- The frames, the innermost first (`heap->top`, then the callers), and the free chunks
(`heap->chunks`).  `next` numbers the next chunk the system hands out. -/
structure Heap where
  top : Frame
  callers : List Frame
  free : List Nat
  next : Nat
deriving DecidableEq

/-- FbleNewValueHeap, value.c:979-1015. -/
def newHeap : Heap where
  top := { chunk := 0, off := 0, cur := 0, top := frameSize, max := chunkSize, chunks := [], merges := 0 }
  callers := []
  free := []
  next := 1

/-- StackAlloc, value.c:609-629. -/
def stackAlloc (h : Heap) (size : Nat) : Heap × Block :=
  let f := h.top
  let h := if f.max < f.top + size then
      let (c, free, next) := match h.free with
        | [] => (h.next, [], h.next + 1)
        | c :: cs => (c, cs, h.next)
      { h with
        free := free
        next := next
        top := { f with chunks := c :: f.chunks, cur := c, top := size + header, max := chunkSize } }
    else h
  ({ h with top := { h.top with top := h.top.top + size } }, ⟨h.top.cur, h.top.top, size⟩)

/-- PushFrame, value.c:1051-1077. -/
def pushFrame (h : Heap) (merge : Bool) : Heap × Option Block :=
  if merge then ({ h with top := { h.top with merges := h.top.merges + 1 } }, none)
  else
    let (h, b) := stackAlloc h frameSize
    let callee : Frame :=
      { chunk := b.chunk, off := b.off, cur := b.chunk, top := b.off + frameSize, max := h.top.max, chunks := [], merges := 0 }
    ({ h with top := callee, callers := h.top :: h.callers }, some b)

/-- Moving a list of chunks one by one to the front of the free list, value.c:1126-1131 and
1186-1191. -/
def release : List Nat → List Nat → List Nat
  | [], free => free
  | c :: cs, free => release cs (c :: free)

/-- FblePopFrame, value.c:1086-1138.  Popping the last frame is not allowed. -/
def popFrame (h : Heap) : Heap :=
  if 0 < h.top.merges then { h with top := { h.top with merges := h.top.merges - 1 } }
  else match h.callers with
    | [] => h
    | f :: fs => { h with top := f, callers := fs, free := release h.top.chunks h.free }

/-- CompactFrame, value.c:1155-1227. -/
def compactFrame (h : Heap) (merge : Bool) : Heap × Option Block :=
  if merge then (h, none)
  else if 0 < h.top.merges then
    pushFrame { h with top := { h.top with merges := h.top.merges - 1 } } false
  else match h.callers with
    | [] => (h, none)
    | caller :: _ =>
      ({ h with
          free := release h.top.chunks h.free
          top := { h.top with cur := h.top.chunk, top := h.top.off + frameSize, max := caller.max, chunks := [] } }, none)

/-- The chunks FbleFreeValueHeap returns to the system, value.c:1018-1047: those of the frames, the
initial one, the free ones.  The flag says whether it follows a pointer that was never initialised:
FbleNewValueHeap does not set the `chunks` field of the first frame, so that the list of that frame ends with
whatever word (`junk`) was there. -/
def freeHeap (h : Heap) (junk : Nat) : List Nat × Bool :=
  ((h.top :: h.callers).flatMap (·.chunks) ++ 0 :: h.free, junk != 0)

inductive Op where
  | alloc (size : Nat)
  | push (merge : Bool)
  | pop
  | compact (merge : Bool)

/-- One operation, and the memory it handed out. -/
def step (h : Heap) : Op → Heap × Option Block
  | .alloc n => let (h, b) := stackAlloc h n; (h, some b)
  | .push m => pushFrame h m
  | .pop => (popFrame h, none)
  | .compact m => compactFrame h m

/-! ### Specification -/

/-- What a user of the heap knows: for each frame, innermost first, how many calls are merged into it
and which memory was handed out in it. -/
abbrev Live := List (Nat × List Block)

/-- What is live after an operation that handed out `b`: popping or compacting a frame ends the life of
what was handed out in it, unless it is merged with its caller. -/
def live : Live → Op → Option Block → Live
  | (m, bs) :: fs, .alloc _, b => (m, b.toList ++ bs) :: fs
  | (m, bs) :: fs, .push true, _ => (m + 1, bs) :: fs
  | (m, bs) :: fs, .push false, b => (0, []) :: (m, b.toList ++ bs) :: fs
  | (0, _) :: fs, .pop, _ => fs
  | (m + 1, bs) :: fs, .pop, _ => (m, bs) :: fs
  | fs, .compact true, _ => fs
  | (0, _) :: fs, .compact false, _ => (0, []) :: fs
  | (m + 1, bs) :: fs, .compact false, b => (0, []) :: (m, b.toList ++ bs) :: fs
  | [], _, _ => []

/-- Operations that are allowed: the last frame is not popped and not compacted. -/
def allowed : Live → Op → Prop
  | [(0, _)], .pop => False
  | [(0, _)], .compact false => False
  | _, _ => True

/-- The outcome of a sequence of operations, newest first. -/
def run : List Op → Heap × Live
  | [] => (newHeap, [(0, [⟨0, 0, frameSize⟩])])
  | op :: ops =>
    let (h, l) := run ops
    let (h', b) := step h op
    (h', live l op b)

def Legal : List Op → Prop
  | [] => True
  | op :: ops => Legal ops ∧ allowed (run ops).2 op

/-- Twice the size and a word fit in a chunk. -/
def Small : Op → Prop
  | .alloc n => 2 * n + 8 ≤ 1048576
  | _ => True

/-- The block is in its chunk, behind the link word that additional chunks start with. -/
def InChunk (b : Block) : Prop := (b.chunk ≠ 0 → 8 ≤ b.off) ∧ b.off + b.size ≤ 1048576

/-- No byte in common. -/
def Apart (a b : Block) : Prop :=
  ∀ x y : Nat, x < a.size → y < b.size → ¬ (a.chunk = b.chunk ∧ a.off + x = b.off + y)

/-- All memory that is live. -/
def allLive (l : Live) : List Block := l.flatMap (·.2)

/-! ### Proofs -/

def ApartI (a b : Block) : Prop := a.chunk ≠ b.chunk ∨ a.off + a.size ≤ b.off ∨ b.off + b.size ≤ a.off

theorem ApartI.symm {a b} (h : ApartI a b) : ApartI b a := by unfold ApartI at *; omega

theorem ApartI.apart {a b} (h : ApartI a b) : Apart a b := by
  intro x y hx hy ⟨h1, h2⟩
  unfold ApartI at h
  omega

/-- The chunks available to a frame and its callers. -/
def owned (fs : List Frame) : List Nat := fs.flatMap (·.chunks)

/-- Where the record of a frame is. -/
def BaseOk (f : Frame) : List Frame → Prop
  | [] => f.chunk = 0 ∧ f.off = 0
  | c :: _ => f.chunk = c.cur ∧ f.off + frameSize = c.top

/-- A block that is in no chunk of its frame. -/
def Outer (b : Block) : List Frame → Prop
  | [] => b.chunk = 0
  | c :: _ => b.chunk = c.cur ∧ c.top ≤ b.off

macro "ar" : tactic => `(tactic| ((try simp only [chunkSize, header, frameSize] at *); omega))

/-- What holds for a frame with the blocks handed out in it, above callers `fs`. -/
structure FrameOk (f : Frame) (bs : List Block) (fs : List Frame) : Prop where
  max : f.max = chunkSize
  top : f.top ≤ chunkSize
  low : f.cur ≠ 0 → header ≤ f.top
  base : BaseOk f fs
  cur : f.cur ∈ f.chunks ∨ (f.cur = f.chunk ∧ f.off + frameSize ≤ f.top)
  blocks : ∀ b ∈ bs, InChunk b ∧ (b.chunk = f.cur → b.off + b.size ≤ f.top) ∧
    (b.chunk ∈ f.chunks ∨ Outer b fs)
  apart : bs.Pairwise ApartI

def StackOk : List Frame → Live → Prop
  | [], [] => True
  | f :: fs, (m, bs) :: l => FrameOk f bs fs ∧ f.merges = m ∧ StackOk fs l
  | _, _ => False

structure Inv (h : Heap) (l : Live) : Prop where
  ok : StackOk (h.top :: h.callers) l
  nd : (0 :: h.free ++ owned (h.top :: h.callers)).Nodup
  lt : ∀ c ∈ 0 :: h.free ++ owned (h.top :: h.callers), c < h.next
  all : (0 :: h.free ++ owned (h.top :: h.callers)).length = h.next

theorem owned_cons (f : Frame) (fs : List Frame) : owned (f :: fs) = f.chunks ++ owned fs := by simp [owned]

theorem mem_owned {c : Nat} {fs : List Frame} : c ∈ owned fs ↔ ∃ f ∈ fs, c ∈ f.chunks := by
  simp [owned]

/-- The chunk a frame allocates in is its own or that of an outer one. -/
theorem cur_where : ∀ {fs : List Frame} {l : Live}, StackOk fs l → ∀ f ∈ fs.head?, f.cur = 0 ∨ f.cur ∈ owned fs := by
  intro fs
  induction fs with
  | nil => intro l _ f hf; simp at hf
  | cons g gs ihg =>
    intro l ok f hf
    simp at hf; subst hf
    cases l with
    | nil => cases ok
    | cons y l =>
      obtain ⟨q1, q2, q3⟩ := ok
      rcases q1.cur with h | h
      · right; simp [owned, h]
      · cases gs with
        | nil => left; rw [h.1]; exact q1.base.1
        | cons k gs =>
          have hb := q1.base
          simp only [BaseOk] at hb
          rw [h.1, hb.1]
          rcases ihg q3 k (by simp) with h | h
          · exact .inl h
          · right; simp only [owned, List.flatMap_cons, List.mem_append] at h ⊢; tauto

/-- Where the live blocks of a stack of frames are. -/
theorem live_where : ∀ {fs : List Frame} {l : Live}, StackOk fs l → ∀ b ∈ allLive l,
    InChunk b ∧ (b.chunk = 0 ∨ b.chunk ∈ owned fs) := by
  intro fs
  induction fs with
  | nil => intro l ok b hb; cases l with
    | nil => simp [allLive] at hb
    | cons x l => cases ok
  | cons f fs ih =>
    intro l ok b hb
    cases l with
    | nil => cases ok
    | cons x l =>
    obtain ⟨m, bs⟩ := x
    obtain ⟨o1, o2, o3⟩ := ok
    simp only [allLive, List.flatMap_cons, List.mem_append] at hb
    rcases hb with hb | hb
    · obtain ⟨b1, b2, b3⟩ := o1.blocks b hb
      refine ⟨b1, ?_⟩
      rcases b3 with b3 | b3
      · right; simp [owned, b3]
      · cases fs with
        | nil => exact .inl b3
        | cons c fs =>
          obtain ⟨b4, _⟩ := b3
          cases l with
          | nil => cases o3
          | cons y l =>
            obtain ⟨p1, p2, p3⟩ := o3
            rcases cur_where (fs := c :: fs) (l := y :: l) ⟨p1, p2, p3⟩ c (by simp) with h | h
            · left; rw [b4, h]
            · right; rw [b4]; simp only [owned, List.flatMap_cons, List.mem_append] at h ⊢; tauto
    · obtain ⟨i1, i2⟩ := ih o3 b hb
      refine ⟨i1, ?_⟩
      rcases i2 with h | h
      · exact .inl h
      · right; simp only [owned, List.flatMap_cons, List.mem_append] at h ⊢; tauto

/-- In the chunk the innermost frame allocates in, everything live is below `top`. -/
theorem below : ∀ {fs : List Frame} {l : Live}, StackOk fs l → (0 :: owned fs).Nodup → ∀ f ∈ fs.head?, ∀ b ∈ allLive l,
    b.chunk = f.cur → b.off + b.size ≤ f.top := by
  intro fs
  induction fs with
  | nil => intro l _ _ f hf; simp at hf
  | cons g gs ih =>
    intro l ok nd f hf b hb hc
    simp at hf; subst hf
    cases l with
    | nil => cases ok
    | cons y l =>
      obtain ⟨m, bs⟩ := y
      obtain ⟨q1, q2, q3⟩ := ok
      simp only [allLive, List.flatMap_cons, List.mem_append] at hb
      rcases hb with hb | hb
      · exact (q1.blocks b hb).2.1 hc
      · have hw := (live_where q3 b hb).2
        have hdis : b.chunk ∉ g.chunks := by
          simp only [owned, List.flatMap_cons, List.nodup_cons, List.nodup_append, List.mem_append] at nd
          intro hm
          rcases hw with h | h
          · exact nd.1 (.inl (h ▸ hm))
          · exact nd.2.2.2 _ hm _ h rfl
        rcases q1.cur with h | h
        · exact absurd (hc ▸ h) hdis
        · cases gs with
          | nil => cases l with
            | nil => simp at hb
            | cons _ _ => cases q3
          | cons k gs =>
            have hbase := q1.base
            simp only [BaseOk] at hbase
            have nd' : (0 :: owned (k :: gs)).Nodup := by
              simp only [owned_cons g, List.nodup_cons, List.nodup_append, List.mem_append] at nd
              exact List.nodup_cons.mpr ⟨fun h => nd.1 (.inr h), nd.2.2.1⟩
            have := ih q3 nd' k (by simp) b hb (by rw [hc, h.1, hbase.1])
            omega

/-- All that is live is apart. -/
theorem all_apart : ∀ {fs : List Frame} {l : Live}, StackOk fs l → (0 :: owned fs).Nodup → (allLive l).Pairwise ApartI := by
  intro fs
  induction fs with
  | nil => intro l ok _; cases l with
    | nil => simp [allLive]
    | cons _ _ => cases ok
  | cons g gs ih =>
    intro l ok nd
    cases l with
    | nil => cases ok
    | cons y l =>
      obtain ⟨m, bs⟩ := y
      obtain ⟨q1, q2, q3⟩ := ok
      have nd0 := nd
      simp only [owned_cons g, List.nodup_cons, List.nodup_append, List.mem_append] at nd
      have nd' : (0 :: owned gs).Nodup := List.nodup_cons.mpr ⟨fun h => nd.1 (.inr h), nd.2.2.1⟩
      simp only [allLive, List.flatMap_cons]
      refine List.pairwise_append.mpr ⟨q1.apart, ih q3 nd', fun a ha b hb => ?_⟩
      have hw := (live_where q3 b hb).2
      rcases (q1.blocks a ha).2.2 with h | h
      · left
        intro he
        rw [he] at h
        rcases hw with h' | h'
        · exact nd.1 (.inl (h' ▸ h))
        · exact nd.2.2.2 _ h _ h' rfl
      · cases gs with
        | nil => cases l with
          | nil => simp at hb
          | cons _ _ => cases q3
        | cons k gs =>
          simp only [Outer] at h
          by_cases he : b.chunk = k.cur
          · have := below q3 nd' k (by simp) b hb he
            right; right; omega
          · left; rw [h.1]; exact fun h => he h.symm

theorem nodup_tail {h : Heap} {l} (inv : Inv h l) : (0 :: owned (h.top :: h.callers)).Nodup := by
  have := inv.nd
  simp only [List.cons_append, List.nodup_cons, List.nodup_append, List.mem_append] at this ⊢
  exact ⟨fun h => this.1 (.inr h), this.2.2.1⟩

theorem stackAlloc_ok {h : Heap} {m : Nat} {bs : List Block} {l : Live} (inv : Inv h ((m, bs) :: l)) {n : Nat}
    (hn : 2 * n + 8 ≤ chunkSize ∨ h.top.top + n ≤ h.top.max) :
    Inv (stackAlloc h n).1 ((m, (stackAlloc h n).2 :: bs) :: l) ∧
    (stackAlloc h n).1.callers = h.callers ∧ (stackAlloc h n).1.top.merges = h.top.merges ∧
    (stackAlloc h n).2.chunk = (stackAlloc h n).1.top.cur ∧ (stackAlloc h n).2.size = n ∧
    (stackAlloc h n).2.off + n = (stackAlloc h n).1.top.top := by
  obtain ⟨o1, o2, o3⟩ := inv.ok
  unfold stackAlloc
  by_cases hf : h.top.max < h.top.top + n
  · -- a new chunk
    have hn : 2 * n + 8 ≤ chunkSize := by ar
    obtain ⟨c, free, next, he, hp, hlt, hnd, hle⟩ : ∃ c free next,
        (match h.free with | [] => (h.next, [], h.next + 1) | c :: cs => (c, cs, h.next)) = (c, free, next) ∧
        (c :: (0 :: free ++ owned (h.top :: h.callers))).length = next ∧
        (∀ d ∈ c :: (0 :: free ++ owned (h.top :: h.callers)), d < next) ∧
        (c :: (0 :: free ++ owned (h.top :: h.callers))).Nodup ∧ h.next ≤ next := by
      have i1 := inv.nd
      have i2 := inv.lt
      have i3 := inv.all
      cases hfr : h.free with
      | nil =>
        rw [hfr] at i1 i2 i3
        refine ⟨h.next, [], h.next + 1, rfl, by simp at i3 ⊢; ar, ?_, ?_, by ar⟩
        · intro d hd
          rcases List.mem_cons.mp hd with rfl | hd
          · ar
          · have := i2 d hd; ar
        · exact List.nodup_cons.mpr ⟨fun h => absurd (i2 _ h) (by ar), i1⟩
      | cons c cs =>
        rw [hfr] at i1 i2 i3
        have hperm : (0 :: (c :: cs) ++ owned (h.top :: h.callers)).Perm (c :: (0 :: cs ++ owned (h.top :: h.callers))) := by
          exact List.Perm.swap _ _ _
        exact ⟨c, cs, h.next, rfl, by rw [← hperm.length_eq]; exact i3, fun d hd => i2 d (hperm.mem_iff.mpr hd),
          hperm.nodup_iff.mp i1, Nat.le_refl _⟩
    simp only [hf, if_true, he]
    have hnew : ∀ d, d = 0 ∨ d ∈ owned (h.top :: h.callers) → d ≠ c := by
      rintro d hd rfl
      apply (List.nodup_cons.mp hnd).1
      simp only [List.cons_append, List.mem_cons, List.mem_append]
      tauto
    have hc0 : c ≠ 0 := fun h => hnew 0 (.inl rfl) h.symm
    have hbs : ∀ b ∈ bs, b.chunk ≠ c := fun b hb =>
      hnew _ (live_where inv.ok b (by simp [allLive, hb])).2
    have hperm : (0 :: free ++ (c :: h.top.chunks ++ owned h.callers)).Perm (c :: (0 :: free ++ owned (h.top :: h.callers))) := by
      rw [owned_cons]
      exact List.perm_middle
    refine ⟨⟨⟨⟨rfl, ?_, ?_, o1.base, .inl (by simp), ?_, ?_⟩, o2, o3⟩, ?_, ?_, ?_⟩, trivial, trivial, trivial, trivial, ?_⟩
    · show n + header + n ≤ chunkSize
      ar
    · intro _
      show header ≤ n + header + n
      ar
    · intro b hb
      rcases List.mem_cons.mp hb with rfl | hb
      · exact ⟨⟨fun _ => by show 8 ≤ n + header; ar, by show n + header + n ≤ 1048576; ar⟩, fun _ => Nat.le_refl _, .inl (by simp)⟩
      · obtain ⟨b1, b2, b3⟩ := o1.blocks b hb
        refine ⟨b1, fun he => absurd he (hbs b hb), ?_⟩
        rcases b3 with b3 | b3
        · exact .inl (List.mem_cons_of_mem _ b3)
        · exact .inr b3
    · exact List.pairwise_cons.mpr ⟨fun b hb => .inl (hbs b hb).symm, o1.apart⟩
    · rw [owned_cons]; exact hperm.nodup_iff.mpr hnd
    · rw [owned_cons]; exact fun d hd => hlt d (hperm.mem_iff.mp hd)
    · rw [owned_cons]; rw [← hp]; exact hperm.length_eq
    · trivial
  · simp only [hf, if_false]
    have hfit : h.top.top + n ≤ chunkSize := by have := o1.max; ar
    refine ⟨⟨⟨⟨o1.max, hfit, ?_, o1.base, ?_, ?_, ?_⟩, o2, o3⟩, ?_, ?_, ?_⟩, trivial, trivial, trivial, trivial, ?_⟩
    · intro hc
      show header ≤ h.top.top + n
      have := o1.low hc
      ar
    · rcases o1.cur with hc | hc
      · exact .inl hc
      · right
        refine ⟨hc.1, ?_⟩
        show h.top.off + frameSize ≤ h.top.top + n
        ar
    · intro b hb
      rcases List.mem_cons.mp hb with rfl | hb
      · refine ⟨⟨fun h => o1.low h, hfit⟩, fun _ => Nat.le_refl _, ?_⟩
        rcases o1.cur with hc | hc
        · exact .inl hc
        · right
          have hb := o1.base
          cases hcs : h.callers with
          | nil => rw [hcs] at hb; exact hc.1.trans hb.1
          | cons k ks =>
            rw [hcs] at hb
            exact ⟨hc.1.trans hb.1, by rw [← hb.2]; exact hc.2⟩
      · obtain ⟨b1, b2, b3⟩ := o1.blocks b hb
        exact ⟨b1, fun he => Nat.le_trans (b2 he) (Nat.le_add_right _ _), b3⟩
    · refine List.pairwise_cons.mpr ⟨fun b hb => ?_, o1.apart⟩
      by_cases he : b.chunk = h.top.cur
      · have := (o1.blocks b hb).2.1 he
        right; right; exact this
      · left; exact fun h => he h.symm
    · have := inv.nd; rw [owned_cons] at this ⊢; exact this
    · have := inv.lt; rw [owned_cons] at this ⊢; exact this
    · have := inv.all; rw [owned_cons] at this ⊢; exact this
    · trivial

theorem release_perm : ∀ (cs free : List Nat), (release cs free).Perm (cs ++ free) := by
  intro cs
  induction cs with
  | nil => intro free; exact .refl _
  | cons c cs ih => intro free; exact (ih (c :: free)).trans List.perm_middle

theorem push_ok {h : Heap} {m : Nat} {bs : List Block} {l : Live} (inv : Inv h ((m, bs) :: l)) :
    ∃ b, (pushFrame h false).2 = some b ∧ Inv (pushFrame h false).1 ((0, []) :: (m, b :: bs) :: l) := by
  obtain ⟨a1, a2, a3, a4, a5, a6⟩ := stackAlloc_ok inv (n := frameSize) (.inl (by decide))
  refine ⟨(stackAlloc h frameSize).2, rfl, ?_⟩
  obtain ⟨o1, o2, o3⟩ := a1.ok
  have hin := (o1.blocks (stackAlloc h frameSize).2 (by simp)).1
  simp only [pushFrame, Bool.false_eq_true, if_false]
  refine ⟨⟨⟨o1.max, ?_, ?_, ⟨a4, a6⟩, .inr ⟨rfl, Nat.le_refl _⟩, by simp, by simp⟩, rfl, o1, o2, o3⟩, ?_, ?_, ?_⟩
  · show (stackAlloc h frameSize).2.off + frameSize ≤ chunkSize
    rw [a6]; exact o1.top
  · intro hc
    show header ≤ (stackAlloc h frameSize).2.off + frameSize
    ar
  · have := a1.nd; rw [owned_cons, owned_cons] at *; exact this
  · have := a1.lt; rw [owned_cons, owned_cons] at *; exact this
  · have := a1.all; rw [owned_cons, owned_cons] at *; exact this

theorem pop_perm (t : Frame) (free : List Nat) (fs : List Frame) :
    (0 :: release t.chunks free ++ owned fs).Perm (0 :: free ++ owned (t :: fs)) := by
  rw [owned_cons]
  show (0 :: (release t.chunks free ++ owned fs)).Perm (0 :: (free ++ (t.chunks ++ owned fs)))
  refine List.Perm.cons _ ?_
  refine ((release_perm _ _).append_right _).trans ?_
  rw [← List.append_assoc]
  exact List.perm_append_comm.append_right _

theorem step_ok {h : Heap} {l : Live} (inv : Inv h l) (op : Op) (hs : Small op) (ha : allowed l op) :
    Inv (step h op).1 (live l op (step h op).2) := by
  cases l with
  | nil => exact inv.ok.elim
  | cons x l =>
  obtain ⟨m, bs⟩ := x
  obtain ⟨o1, o2, o3⟩ := inv.ok
  cases op with
  | alloc n => exact (stackAlloc_ok inv (.inl hs)).1
  | push mg =>
    cases mg with
    | true =>
      refine ⟨⟨⟨o1.max, o1.top, o1.low, o1.base, o1.cur, o1.blocks, o1.apart⟩, ?_, o3⟩, ?_, ?_, ?_⟩
      · show h.top.merges + 1 = m + 1
        rw [o2]
      · have := inv.nd; rw [owned_cons] at *; exact this
      · have := inv.lt; rw [owned_cons] at *; exact this
      · have := inv.all; rw [owned_cons] at *; exact this
    | false =>
      obtain ⟨b, p1, p2⟩ := push_ok inv
      show Inv (pushFrame h false).1 (live _ _ (pushFrame h false).2)
      rw [p1]
      exact p2
  | pop =>
    show Inv (popFrame h) _
    unfold popFrame
    cases m with
    | succ m =>
      rw [if_pos (by ar)]
      refine ⟨⟨⟨o1.max, o1.top, o1.low, o1.base, o1.cur, o1.blocks, o1.apart⟩, ?_, o3⟩, ?_, ?_, ?_⟩
      · show h.top.merges - 1 = m
        rw [o2]; rfl
      · have := inv.nd; rw [owned_cons] at *; exact this
      · have := inv.lt; rw [owned_cons] at *; exact this
      · have := inv.all; rw [owned_cons] at *; exact this
    | zero =>
      rw [if_neg (by ar)]
      cases hc : h.callers with
      | nil =>
        rw [hc] at o3
        cases l with
        | nil => exact ha.elim
        | cons _ _ => exact o3.elim
      | cons f fs =>
        rw [hc] at o3
        have hp := pop_perm h.top h.free (f :: fs)
        have i1 := inv.nd
        have i2 := inv.lt
        have i3 := inv.all
        rw [hc] at i1 i2 i3
        exact ⟨o3, hp.nodup_iff.mpr i1, fun c h => i2 c (hp.mem_iff.mp h), hp.length_eq.trans i3⟩
  | compact mg =>
    cases mg with
    | true =>
      have : live ((m, bs) :: l) (.compact true) (step h (.compact true)).2 = (m, bs) :: l := by
        cases m <;> rfl
      rw [this]; exact inv
    | false =>
      show Inv (compactFrame h false).1 (live _ _ (compactFrame h false).2)
      cases m with
      | succ m =>
        have inv' : Inv { h with top := { h.top with merges := h.top.merges - 1 } } ((m, bs) :: l) := by
          refine ⟨⟨⟨o1.max, o1.top, o1.low, o1.base, o1.cur, o1.blocks, o1.apart⟩, ?_, o3⟩, ?_, ?_, ?_⟩
          · show h.top.merges - 1 = m
            rw [o2]; rfl
          · have := inv.nd; rw [owned_cons] at *; exact this
          · have := inv.lt; rw [owned_cons] at *; exact this
          · have := inv.all; rw [owned_cons] at *; exact this
        obtain ⟨b, p1, p2⟩ := push_ok inv'
        have : compactFrame h false = pushFrame { h with top := { h.top with merges := h.top.merges - 1 } } false := by
          unfold compactFrame
          rw [if_neg (by simp), if_pos (by ar)]
        rw [this, p1]
        exact p2
      | zero =>
        unfold compactFrame
        rw [if_neg (by simp), if_neg (by ar)]
        cases hc : h.callers with
        | nil =>
          rw [hc] at o3
          cases l with
          | nil => exact ha.elim
          | cons _ _ => exact o3.elim
        | cons f fs =>
          have hb := o1.base
          rw [hc] at o3 hb
          simp only [BaseOk, Outer] at hb
          cases l with
          | nil => exact o3.elim
          | cons y l =>
          obtain ⟨m', bs'⟩ := y
          obtain ⟨q1, q2, q3⟩ := o3
          have hp := pop_perm h.top h.free (f :: fs)
          have i1 := inv.nd
          have i2 := inv.lt
          have i3 := inv.all
          rw [hc] at i1 i2 i3
          refine ⟨⟨⟨q1.max, ?_, ?_, hb, .inr ⟨rfl, Nat.le_refl _⟩, by simp, by simp⟩, o2, q1, q2, q3⟩, ?_, ?_, ?_⟩
          · show h.top.off + frameSize ≤ chunkSize
            rw [hb.2]; exact q1.top
          · intro _
            show header ≤ h.top.off + frameSize
            ar
          · exact hp.nodup_iff.mpr i1
          · exact fun c h => i2 c (hp.mem_iff.mp h)
          · exact hp.length_eq.trans i3

theorem run_ok : ∀ {ops : List Op}, Legal ops → (∀ op ∈ ops, Small op) → Inv (run ops).1 (run ops).2 := by
  intro ops
  induction ops with
  | nil =>
    intro _ _
    refine ⟨⟨⟨rfl, by decide, by decide, ⟨rfl, rfl⟩, .inr ⟨rfl, by decide⟩, ?_, by simp⟩, rfl, trivial⟩, by decide, by decide, by decide⟩
    intro b hb
    simp at hb; subst hb
    exact ⟨⟨fun h => absurd rfl h, by decide⟩, fun _ => Nat.le_refl _, .inr rfl⟩
  | cons op ops ih =>
    intro hl hs
    exact step_ok (ih hl.1 fun o ho => hs o (List.mem_cons_of_mem _ ho)) op (hs op (by simp)) hl.2

/-- **C12**.  After any allowed sequence of operations with allocations of at most half a chunk (less
four bytes), all memory handed out that is still live lies within its chunk and behind the link word,
and no two pieces have a byte in common. -/
theorem C12_apart {ops : List Op} (hl : Legal ops) (hs : ∀ op ∈ ops, Small op) :
    (∀ b ∈ allLive (run ops).2, InChunk b) ∧ (allLive (run ops).2).Pairwise Apart := by
  have inv := run_ok hl hs
  exact ⟨fun b hb => (live_where inv.ok b hb).1,
    (all_apart inv.ok (nodup_tail inv)).imp ApartI.apart⟩

/-- An allocation gets the size asked for. -/
theorem C12_size {ops : List Op} (n : Nat) : ∃ b, (step (run ops).1 (.alloc n)).2 = some b ∧ b.size = n := by
  exact ⟨_, rfl, rfl⟩

/-- The chunks in use are those of the frames and the free ones, each once; freeing the heap gives back each chunk
obtained from the system exactly once. -/
theorem C12_freed {ops : List Op} (hl : Legal ops) (hs : ∀ op ∈ ops, Small op) (junk : Nat) :
    (freeHeap (run ops).1 junk).1.Nodup ∧ (∀ c, c ∈ (freeHeap (run ops).1 junk).1 ↔ c < (run ops).1.next) ∧
    ((freeHeap (run ops).1 junk).2 = true ↔ junk ≠ 0) := by
  have inv := run_ok hl hs
  have hp : (freeHeap (run ops).1 junk).1.Perm (0 :: (run ops).1.free ++ owned ((run ops).1.top :: (run ops).1.callers)) :=
    List.perm_append_comm
  refine ⟨hp.nodup_iff.mpr inv.nd, fun c => ?_, by simp [freeHeap]⟩
  rw [hp.mem_iff]
  refine ⟨inv.lt c, fun hc => ?_⟩
  have hsub : (0 :: (run ops).1.free ++ owned ((run ops).1.top :: (run ops).1.callers)) ⊆ List.range (run ops).1.next :=
    fun d hd => List.mem_range.mpr (inv.lt d hd)
  have := (List.subperm_of_subset inv.nd hsub).perm_of_length_le (by rw [List.length_range, inv.all]; exact Nat.le_refl _)
  exact this.mem_iff.mpr (List.mem_range.mpr hc)

/-- The callee's record is right below the caller's `top` (value.c:965 finds it there). -/
theorem C12_callee {ops : List Op} (hl : Legal ops) (hs : ∀ op ∈ ops, Small op) {c : Frame} {cs}
    (h : (run ops).1.callers = c :: cs) :
    (run ops).1.top.chunk = c.cur ∧ (run ops).1.top.off + frameSize = c.top := by
  have inv := run_ok hl hs
  cases hl : (run ops).2 with
  | nil => rw [hl] at inv; exact inv.ok.elim
  | cons x l =>
    rw [hl] at inv
    have := inv.ok.1.base
    rw [h] at this
    exact this

/-- A larger allocation is outside the chunk whenever it does not fit where the frame is. -/
theorem C12_violated (h : Heap) (n : Nat) (hn : 1048576 < 2 * n + 8) (hfull : h.top.max < h.top.top + n) :
    ¬ InChunk (stackAlloc h n).2 := by
  simp only [stackAlloc, hfull, if_true, InChunk]
  rintro ⟨_, h2⟩
  ar

/-- Two allocations of half a chunk. -/
example : Legal [.alloc 524288, .alloc 524288] ∧
    ¬ InChunk (stackAlloc (run [.alloc 524288]).1 524288).2 :=
  ⟨by simp [Legal, allowed, run, step, live], C12_violated _ _ (by decide) (by decide)⟩

/-- A run through all operations with a chunk boundary: a value in the first frame, a merged call, a
call with values that need another chunk, and a tail call that gives it back. -/
def before : List Op := [.alloc 500000, .alloc 400000, .alloc 300000, .push false, .alloc 40, .push true, .alloc 64]
def demo : List Op := [.alloc 48, .compact false] ++ before

example : Legal demo ∧ (∀ op ∈ demo, Small op) ∧
    allLive (run before).2 = [⟨1, 500008, 500000⟩, ⟨0, 300328, 400000⟩, ⟨0, 328, 300000⟩, ⟨0, 216, 112⟩, ⟨0, 176, 40⟩, ⟨0, 112, 64⟩, ⟨0, 0, 112⟩] ∧
    allLive (run demo).2 = [⟨0, 328, 48⟩, ⟨0, 216, 112⟩, ⟨0, 176, 40⟩, ⟨0, 112, 64⟩, ⟨0, 0, 112⟩] ∧
    (freeHeap (run demo).1 0).1 = [0, 1] := by
  refine ⟨?_, ?_, by decide +kernel, by decide +kernel, by decide +kernel⟩
  · simp [Legal, demo, before, run, step, live, allowed, stackAlloc, pushFrame, newHeap, compactFrame]
  · simp [demo, before, Small]

end Verif.Support.StackAlloc
