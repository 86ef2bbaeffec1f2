import Verif.Profile.Model
import Mathlib.Tactic.Common
/-
The chunked call stack of the profiler, /repo/lib/profile.c:96-114, 205-253: C56.

`Verif.Profile.Model` uses a list for the call stack; here the chunks are modelled and shown to
behave like that list.
-/
namespace Verif.Profile.Stack

/-- CallStack, profile.c:107-114, without its links: the index of `top`, the number of calls up to
`end`, and the data.  Its content is arbitrary where nothing was written. -/
structure Chunk (α : Type) where
  top : Nat
  size : Nat
  data : Nat → α

/-- The chunks: `cur` is thread->calls, `tail` the chain of its `tail` links, `next` the chain of its
`next` links.  `leaked` counts the chunks that no link leads to; `ub` tells whether an access was
outside the data of a chunk, or a NULL chunk was used. -/
structure CS (α : Type) where
  cur : Chunk α
  tail : List (Chunk α)
  next : List (Chunk α)
  leaked : Nat
  ub : Bool

variable {α : Type}

/-- The `++top == end` branch of CallStackPush, profile.c:221-230.  `junk` is the content of fresh
memory. -/
def advance (junk : Nat → α) (s : CS α) : CS α :=
  let next := if s.next.isEmpty then [⟨0, 2 * s.cur.size, junk⟩] else s.next
  match next with
  | [] => s
  | c :: cs => { s with cur := c, tail := s.cur :: s.tail, next := cs }

/-- CallStackPush, profile.c:218-233. -/
def push (junk : Nat → α) (s : CS α) : CS α :=
  let s := { s with cur := { s.cur with top := s.cur.top + 1 } }
  if s.cur.top = s.cur.size then advance junk s else s

/-- A write through `thread->calls->top`, as in profile.c:491-495. -/
def set (v : α) (s : CS α) : CS α :=
  { s with cur := { s.cur with data := fun i => if i = s.cur.top then v else s.cur.data i },
           ub := s.ub || decide (s.cur.size ≤ s.cur.top) }

/-- The decrement at the end of CallStackPop, profile.c:252. -/
def down (s : CS α) : CS α :=
  { s with cur := { s.cur with top := s.cur.top - 1 }, ub := s.ub || s.cur.top == 0 }

/-- CallStackPop, profile.c:243-253.  Freeing a chunk loses what its `next` link led to. -/
def pop (s : CS α) : CS α :=
  if s.cur.top = 0 then
    match s.tail with
    | [] => { s with ub := true }
    | c :: cs => down { s with cur := c, tail := cs, next := [s.cur],
                               leaked := s.leaked + (s.next.drop 1).length }
  else down s

/-- The call stack of a new thread, profile.c:587-593. -/
def start (junk : Nat → α) (v : α) : CS α :=
  set v ⟨⟨0, 8, junk⟩, [], [], 0, false⟩

/-- The operations: pushing a call, overwriting the top one, popping. -/
inductive Op (α : Type) where
  | push (v : α) (junk : Nat → α)
  | set (v : α)
  | pop

def step (s : CS α) : Op α → CS α
  | .push v junk => set v (push junk s)
  | .set v => set v s
  | .pop => pop s

/-- Running operations, newest first. -/
def run (junk : Nat → α) (v : α) : List (Op α) → CS α
  | [] => start junk v
  | op :: ops => step (run junk v ops) op

/-- How many chunks FbleFreeProfileThread frees, profile.c:616-624: the next one, if any, and
everything along the tail links. -/
def freed (s : CS α) : Nat := (s.next.take 1).length + 1 + s.tail.length

/-- How many chunks exist. -/
def allocated (s : CS α) : Nat := s.leaked + s.next.length + 1 + s.tail.length

/-! ### Specification -/

/-- The stack as a list, top first. -/
def spec (v : α) : List (Op α) → List α
  | [] => [v]
  | op :: ops =>
    match op, spec v ops with
    | .push w _, xs => w :: xs
    | .set w, _ :: xs => w :: xs
    | .set _, [] => []
    | .pop, xs => xs.drop 1

/-- The initial call is never popped. -/
def Legal (v : α) : List (Op α) → Prop
  | [] => True
  | .pop :: ops => Legal v ops ∧ 1 < (spec v ops).length
  | _ :: ops => Legal v ops

/-- What is read through `thread->calls->top`. -/
def top (s : CS α) : α := s.cur.data s.cur.top

/-- The first `n` calls of a chunk, top first. -/
def upTo (c : Chunk α) (n : Nat) : List α := ((List.range n).map c.data).reverse

/-- Everything that is on the stack. -/
def content (s : CS α) : List α := upTo s.cur (s.cur.top + 1) ++ s.tail.flatMap fun c => upTo c c.size

structure Good (s : CS α) : Prop where
  nub : s.ub = false
  lk : s.leaked = 0
  top : s.cur.top < s.cur.size
  full : ∀ c ∈ s.tail, c.top = c.size ∧ 0 < c.size
  next : s.next.length ≤ 1
  nextTop : ∀ c ∈ s.next, c.top = 0 ∧ 0 < c.size

theorem upTo_congr {c d : Chunk α} {n} (h : ∀ i < n, c.data i = d.data i) : upTo c n = upTo d n := by
  unfold upTo
  congr 1
  exact List.map_congr_left fun i hi => h i (List.mem_range.mp hi)

theorem upTo_succ (c : Chunk α) (n) : upTo c (n + 1) = c.data n :: upTo c n := by
  simp [upTo, List.range_succ]

theorem content_eq (s : CS α) : content s = top s :: (upTo s.cur s.cur.top ++ s.tail.flatMap fun c => upTo c c.size) := by
  rw [content, upTo_succ]; rfl

theorem set_good {s : CS α} (g : Good s) (v : α) : Good (set v s) ∧ content (set v s) = v :: (content s).drop 1 := by
  have ht := g.top
  refine ⟨⟨?_, g.lk, g.top, g.full, g.next, g.nextTop⟩, ?_⟩
  · simp [set, g.nub]; exact ht
  · rw [content_eq, content_eq]
    simp only [set, top, if_true, List.drop_one, List.tail_cons]
    rw [upTo_congr (d := s.cur)]
    intro i hi
    simp [Nat.ne_of_lt hi]

theorem push_good {s : CS α} (g : Good s) (junk : Nat → α) (v : α) :
    Good (set v (push junk s)) ∧ content (set v (push junk s)) = v :: content s := by
  have ht := g.top
  have key : Good (push junk s) ∧ (content (push junk s)).drop 1 = content s := by
    unfold push
    dsimp only
    split
    · rename_i e
      have full' : ∀ c ∈ ({ s.cur with top := s.cur.top + 1 } : Chunk α) :: s.tail, c.top = c.size ∧ 0 < c.size := by
        intro c hc
        rcases List.mem_cons.mp hc with rfl | hc
        · exact ⟨e, by show 0 < s.cur.size; omega⟩
        · exact g.full c hc
      have hcont : ∀ (c : Chunk α), upTo c 0 ++ (({ s.cur with top := s.cur.top + 1 } : Chunk α) :: s.tail).flatMap
          (fun c => upTo c c.size) = content s := by
        intro c
        have e : s.cur.top + 1 = s.cur.size := e
        simp [content, upTo, e]
      unfold advance
      dsimp only
      cases hn : s.next with
      | nil =>
        simp only [List.isEmpty_nil, if_true]
        refine ⟨⟨g.nub, g.lk, ?_, full', by simp, by simp⟩, ?_⟩
        · show 0 < 2 * s.cur.size
          omega
        · rw [content_eq]
          exact hcont _
      | cons c cs =>
        have h1 := g.next
        have h2 := g.nextTop c (by rw [hn]; simp)
        rw [hn] at h1
        have : cs = [] := by cases cs <;> simp_all
        subst this
        simp only [List.isEmpty_cons, Bool.false_eq_true, if_false]
        refine ⟨⟨g.nub, g.lk, ?_, full', by simp, by simp⟩, ?_⟩
        · show c.top < c.size
          omega
        · rw [content_eq]
          show upTo c c.top ++ _ = _
          rw [h2.1]
          exact hcont _
    · rename_i e
      refine ⟨⟨g.nub, g.lk, ?_, g.full, g.next, g.nextTop⟩, ?_⟩
      · have e : ¬ s.cur.top + 1 = s.cur.size := e
        show s.cur.top + 1 < s.cur.size
        omega
      · rw [content_eq]
        rfl
  obtain ⟨h1, h2⟩ := set_good key.1 v
  exact ⟨h1, by rw [h2, key.2]⟩

theorem content_len (s : CS α) : (content s).length = s.cur.top + 1 + (s.tail.map (·.size)).sum := by
  simp only [content, upTo, List.length_append, List.length_reverse, List.length_map, List.length_range]
  congr 1
  induction s.tail with
  | nil => rfl
  | cons c cs ih => simp [ih]

theorem pop_good {s : CS α} (g : Good s) (h : 1 < (content s).length) :
    Good (pop s) ∧ content (pop s) = (content s).drop 1 := by
  have ht := g.top
  unfold pop
  split
  · rename_i e
    cases hs : s.tail with
    | nil => rw [content_len, hs, e] at h; simp at h
    | cons c cs =>
      dsimp only
      have hc := g.full c (by rw [hs]; simp)
      have hd : (s.next.drop 1).length = 0 := by
        have := g.next
        simp; omega
      refine ⟨⟨?_, ?_, ?_, ?_, ?_, ?_⟩, ?_⟩
      · show (s.ub || c.top == 0) = false
        rw [g.nub]
        simp; omega
      · show s.leaked + (s.next.drop 1).length = 0
        rw [g.lk, hd]
      · show c.top - 1 < c.size
        omega
      · intro d hd
        exact g.full d (by rw [hs]; exact List.mem_cons_of_mem _ hd)
      · show [s.cur].length ≤ 1
        simp
      · intro d hd
        have hd : d ∈ [s.cur] := hd
        rw [List.mem_singleton] at hd
        subst hd
        exact ⟨e, by omega⟩
      · rw [content_eq s, e, hs]
        show upTo { c with top := c.top - 1 } (c.top - 1 + 1) ++ _ = _
        rw [show c.top - 1 + 1 = c.size by omega]
        simp [upTo]
        rfl
  · rename_i e
    refine ⟨⟨?_, g.lk, ?_, g.full, g.next, g.nextTop⟩, ?_⟩
    · show (s.ub || s.cur.top == 0) = false
      rw [g.nub]
      simpa using e
    · show s.cur.top - 1 < s.cur.size
      omega
    · rw [content_eq s]
      show upTo { s.cur with top := s.cur.top - 1 } (s.cur.top - 1 + 1) ++ _ = _
      rw [show s.cur.top - 1 + 1 = s.cur.top by omega]
      rfl

theorem run_good (junk : Nat → α) (v : α) {ops : List (Op α)} (h : Legal v ops) :
    Good (run junk v ops) ∧ content (run junk v ops) = spec v ops := by
  induction ops with
  | nil =>
    have g0 : Good (⟨⟨0, 8, junk⟩, [], [], 0, false⟩ : CS α) :=
      ⟨rfl, rfl, Nat.succ_pos _, by simp, by simp, by simp⟩
    obtain ⟨h1, h2⟩ := set_good g0 v
    exact ⟨h1, h2⟩
  | cons op ops ih =>
    cases op with
    | push w j =>
      obtain ⟨g, e⟩ := ih h
      obtain ⟨h1, h2⟩ := push_good g j w
      exact ⟨h1, by rw [run, step, h2, e]; rfl⟩
    | set w =>
      obtain ⟨g, e⟩ := ih h
      obtain ⟨h1, h2⟩ := set_good g w
      refine ⟨h1, ?_⟩
      rw [run, step, h2, e]
      have : spec v ops ≠ [] := by rw [← e, content_eq]; simp
      cases hs : spec v ops with
      | nil => exact absurd hs this
      | cons x xs => simp [spec, hs]
    | pop =>
      obtain ⟨g, e⟩ := ih h.1
      obtain ⟨h1, h2⟩ := pop_good g (by rw [e]; exact h.2)
      exact ⟨h1, by rw [run, step, h2, e]; rfl⟩

/-- **C56**.  For every sequence of pushes, overwrites and pops, at any depth: no access is outside
a chunk, the top call read is the top of the list that the operations describe, everything below is
intact, and when the thread is freed no chunk is lost. -/
theorem C56_stack (junk : Nat → α) (v : α) {ops : List (Op α)} (h : Legal v ops) :
    (run junk v ops).ub = false ∧ some (top (run junk v ops)) = (spec v ops).head? ∧
    content (run junk v ops) = spec v ops ∧ freed (run junk v ops) = allocated (run junk v ops) := by
  obtain ⟨g, e⟩ := run_good junk v h
  refine ⟨g.nub, by rw [← e, content_eq]; rfl, e, ?_⟩
  have := g.next
  simp only [freed, allocated, g.lk, List.length_take]
  omega

/-- Going up over the boundary of the first chunk, down and up again. -/
def climb : List (Op Nat) :=
  (List.range 7).map (fun i => .push (200 + i) fun _ => 0) ++ (List.range 5).map (fun _ => .pop) ++
  (List.range 12).map (fun i => .push (100 + i) fun _ => 0)

instance instDecidableLegal (v : Nat) : ∀ ops : List (Op Nat), Decidable (Legal v ops)
  | [] => isTrue trivial
  | .push _ _ :: ops => instDecidableLegal v ops
  | .set _ :: ops => instDecidableLegal v ops
  | .pop :: ops =>
    have := instDecidableLegal v ops
    inferInstanceAs (Decidable (_ ∧ _))

example : Legal 1 climb ∧ (run (fun _ => 0) 1 climb).tail.length = 1 ∧ (spec 1 climb).length = 15 := by
  refine ⟨by decide +kernel, by decide +kernel, by decide +kernel⟩

end Verif.Profile.Stack
