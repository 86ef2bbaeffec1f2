import Verif.Gc.Steps
/-
C09 - C11: the garbage collector of the value heap.
-/
namespace Verif.Gc

/-! ### Checking concrete histories -/

/-- A sufficient check that a value may be used. -/
def held (s : Sys) : Val → Bool
  | .imm _ => true
  | v => (List.range (s.heap.top + 1)).any fun d => (s.roots d).any fun w => w == v ||
      match w with
      | .gc a => (s.heap.fields a).contains v
      | _ => false

/-- A sufficient check that an operation is legal. -/
def legalB (s : Sys) : Op → Bool
  | .new _ fs => fs.all (held s)
  | .newRef _ => true
  | .assign r v => (s.refs s.heap.top).contains r && held s v
  | .push _ => true
  | .pop v => held s v && (s.heap.merges s.heap.top != 0 || decide (0 < s.heap.top))
  | .compact _ vs => vs.all (held s) && (s.heap.merges s.heap.top != 0 || decide (0 < s.heap.top))
  | .gc => true

def badB (s : Sys) : Op → Bool
  | .pop v => s.heap.merges s.heap.top == 0 && (realloc s.heap v).1.gcFrame == s.heap.top &&
      !((realloc s.heap v).1.lists .gcMarked).isEmpty &&
      !(youngFrom (realloc s.heap v).1 (s.heap.minGen s.heap.top) (realloc s.heap v).2)
  | _ => false

theorem held_sound {s v} (h : held s v = true) : Entitled s v := by
  have key : ((List.range (s.heap.top + 1)).any fun d => (s.roots d).any fun w => w == v ||
      match w with
      | .gc a => (s.heap.fields a).contains v
      | _ => false) = true → Entitled s v := by
    intro h
    simp only [List.any_eq_true, List.mem_range, Bool.or_eq_true, beq_iff_eq] at h
    obtain ⟨d, hd, w, hw, hv⟩ := h
    have hw' : Entitled s w := .handed (by omega) hw
    rcases hv with rfl | hv
    · exact hw'
    · cases w with
      | gc a => exact .field hw' (by simpa [HasField] using hv)
      | _ => simp at hv
  cases v with
  | imm n => exact .packed
  | gc a => exact key h
  | stk a => exact key h
  | uninit => exact key h

theorem legalB_sound {s op} (h : legalB s op = true) : Legal s op := by
  cases op with
  | new l fs => intro v hv; exact held_sound (List.all_eq_true.mp h v hv)
  | newRef l => trivial
  | assign r v =>
    simp only [legalB, Bool.and_eq_true, List.contains_iff_mem] at h
    exact ⟨h.1, held_sound h.2⟩
  | push m => trivial
  | pop v =>
    simp only [legalB, Bool.and_eq_true, Bool.or_eq_true, bne_iff_ne, decide_eq_true_eq] at h
    exact ⟨held_sound h.1, fun h0 => by rcases h.2 with h2 | h2 <;> simp_all⟩
  | compact m vs =>
    simp only [legalB, Bool.and_eq_true, Bool.or_eq_true, bne_iff_ne, decide_eq_true_eq] at h
    exact ⟨fun v hv => held_sound (List.all_eq_true.mp h.1 v hv),
      fun h0 => by rcases h.2 with h2 | h2 <;> simp_all⟩
  | gc => trivial

theorem badB_complete {s op} (h : PopsMarkingFrame s op) : badB s op = true := by
  cases op with
  | pop v =>
    obtain ⟨h1, h2, h3, h4⟩ := h
    simp [badB, h1, h2, h3, h4]
  | _ => exact h.elim

/-- Runs a list of operations, checking them. -/
def run (bad : Bool) : Sys → List Op → Option Sys
  | s, [] => some s
  | s, op :: ops => if legalB s op && !(bad && badB s op) then run bad (step s op) ops else none

theorem run_history {s} : ∀ {ops t}, run true s ops = some t → History PopsMarkingFrame s →
    History PopsMarkingFrame t := by
  intro ops
  induction ops generalizing s with
  | nil => intro t h hs; simp only [run, Option.some.injEq] at h; exact h ▸ hs
  | cons op ops ih =>
    intro t h hs
    simp only [run] at h
    split at h
    · rename_i hc
      simp only [Bool.and_eq_true, Bool.true_and, Bool.not_eq_true'] at hc
      refine ih h (.step op hs (legalB_sound hc.1) fun hb => ?_)
      rw [badB_complete hb] at hc
      simp at hc
    · simp at h

theorem run_any {s} : ∀ {ops t}, run false s ops = some t → History (fun _ _ => False) s →
    History (fun _ _ => False) t := by
  intro ops
  induction ops generalizing s with
  | nil => intro t h hs; simp only [run, Option.some.injEq] at h; exact h ▸ hs
  | cons op ops ih =>
    intro t h hs
    simp only [run] at h
    split at h
    · rename_i hc
      simp only [Bool.and_eq_true] at hc
      exact ih h (.step op hs (legalB_sound hc.1) fun hb => hb)
    · simp at h

/-! ### C09 -/

/-- C09: after any legal history of heap operations that never pops a frame in the middle of being
marked while returning a value from outside that frame, every value the client may still use is
still allocated, and nothing undefined was ever executed (in particular the collector never
touched freed memory). -/
theorem C09_safe {s : Sys} (hs : History PopsMarkingFrame s) :
    s.heap.ub = false ∧ ∀ v, Entitled s v → Usable s.heap v := by
  obtain ⟨⟨K, inv⟩, _⟩ := history_inv hs
  refine ⟨inv.noub, fun v hv => ?_⟩
  have ha := entitled_acc inv hv
  cases v with
  | imm n => trivial
  | gc a => exact inv.accLive ha
  | stk a => exact inv.accStk ha
  | uninit => exact (inv.accUninit ha).elim

/-- The operations of a history on which the collector frees a value in use. -/
def badOps : List Op :=
  [.push false, .push false, .newRef 0, .newRef 0, .newRef 0, .newRef 0,
   .compact false [.gc 0, .gc 1, .gc 2, .gc 3], .newRef 0, .pop (.imm 0),
   .push false, .push false, .compact false [], .newRef 0, .pop (.gc 5), .newRef 0,
   .assign 6 (.gc 5), .pop (.gc 6), .compact false [.gc 6], .compact false [.gc 5],
   .newRef 0, .newRef 0, .newRef 0, .newRef 0, .newRef 0, .newRef 0, .newRef 0, .newRef 0]

theorem badOps_run : ((run false start badOps).map fun s =>
    (decide (Val.gc 5 ∈ s.roots 1), s.heap.alive 5, s.heap.top)) = some (true, false, 1) := by
  decide +kernel

/-- C09 fails without that restriction: there is a legal history after which a value the client
was handed has been freed. -/
theorem C09_violated : ∃ s v, History (fun _ _ => False) s ∧ Entitled s v ∧ ¬ Usable s.heap v := by
  have h := badOps_run
  cases hr : run false start badOps with
  | none => rw [hr] at h; simp at h
  | some s =>
    rw [hr] at h
    simp only [Option.map_some, Option.some.injEq, Prod.mk.injEq, decide_eq_true_eq] at h
    exact ⟨s, .gc 5, run_any hr .start, .handed (d := 1) (by omega) h.1,
      by simp [Usable, h.2.1]⟩

/-- Operations that exercise the collector: a cycle through references, frames popped while the
collector works on them. -/
def goodOps : List Op :=
  [.push false, .newRef 1, .newRef 2, .new 3 [.gc 0, .gc 1], .assign 0 (.stk 0),
   .push false, .new 4 [.stk 0], .newRef 5, .assign 3 (.stk 1), .compact false [.gc 3], .gc, .gc,
   .pop (.gc 3), .gc, .compact false [.gc 3, .gc 0], .gc, .gc, .gc, .pop (.gc 3), .gc, .gc, .gc,
   .gc, .gc]

theorem goodOps_run : ((run true start goodOps).map fun s =>
    (decide (Val.gc 3 ∈ s.roots 0), s.heap.freed.length, (s.heap.fields 3).length)) =
      some (true, 0, 1) := by
  decide +kernel

/-- The hypothesis of `C09_safe` is met by a history with frames popped during a collection. -/
example : ∃ s, History PopsMarkingFrame s ∧ Entitled s (.gc 3) ∧ s.heap.fields 3 ≠ [] := by
  have h := goodOps_run
  cases hr : run true start goodOps with
  | none => rw [hr] at h; simp at h
  | some s =>
    rw [hr] at h
    simp only [Option.map_some, Option.some.injEq, Prod.mk.injEq, decide_eq_true_eq] at h
    refine ⟨s, run_history hr .start, .handed (Nat.zero_le _) h.1, fun h0 => ?_⟩
    rw [h0] at h
    simp at h

/-! ### C10 -/

theorem mem_frameLists {h : Heap} {x : Addr} : ∀ {n}, x ∈ frameLists h n ↔
    ∃ d, d ≤ n ∧ (x ∈ h.lists (.alloced d) ∨ x ∈ h.lists (.marked d) ∨ x ∈ h.lists (.unmarked d)) := by
  intro n
  induction n with
  | zero =>
    simp only [frameLists, List.mem_append, or_assoc]
    exact ⟨fun hx => ⟨0, Nat.le_refl _, hx⟩, fun ⟨d, hd, hx⟩ => by
      obtain rfl : d = 0 := by omega
      exact hx⟩
  | succ n ih =>
    simp only [frameLists, List.mem_append, or_assoc, ih]
    constructor
    · rintro (⟨d, hd, hx⟩ | hx)
      · exact ⟨d, by omega, hx⟩
      · exact ⟨n + 1, Nat.le_refl _, by tauto⟩
    · rintro ⟨d, hd, hx⟩
      by_cases hn : d = n + 1
      · subst hn; exact .inr (by tauto)
      · exact .inl ⟨d, by omega, hx⟩

theorem nodup_app {l l' : List Addr} (h1 : l.Nodup) (h2 : l'.Nodup)
    (hd : ∀ x, x ∈ l → x ∈ l' → False) : (l ++ l').Nodup :=
  List.nodup_append.mpr ⟨h1, h2, fun a ha _ hb hab => hd a ha (hab ▸ hb)⟩

theorem nodup_frameLists {h : Heap} (hp : Placed h) : ∀ n, (frameLists h n).Nodup := by
  have one : ∀ d, (h.lists (.alloced d) ++ h.lists (.marked d) ++ h.lists (.unmarked d)).Nodup := by
    intro d
    refine nodup_app (nodup_app (hp.nodup _) (hp.nodup _) fun x h1 h2 => ?_) (hp.nodup _)
      fun x h1 h2 => ?_
    · exact LId.noConfusion (hp.disj h1 h2)
    · rcases List.mem_append.mp h1 with h1 | h1 <;> exact LId.noConfusion (hp.disj h1 h2)
  intro n
  induction n with
  | zero => exact one 0
  | succ n ih =>
    refine nodup_app ih (one _) fun x h1 h2 => ?_
    obtain ⟨d, hd, h1⟩ := mem_frameLists.mp h1
    simp only [List.mem_append, or_assoc] at h2
    rcases h1 with h1 | h1 | h1 <;> rcases h2 with h2 | h2 | h2 <;>
      (have := hp.disj h1 h2; simp at this; try omega)

/-- C10: in any such history no object is freed twice, no object in use is among the freed ones,
and tearing the heap down frees exactly the objects that are left: together every object ever
allocated is freed exactly once.  `freed` records the calls of free made by the collector, in
order, `freeHeap` those made by FbleFreeValueHeap. -/
theorem C10_freed_once {s : Sys} (hs : History PopsMarkingFrame s) :
    (freeHeap s.heap ++ s.heap.freed).Nodup ∧
    (∀ x, x ∈ freeHeap s.heap ++ s.heap.freed ↔ x < s.heap.nextA) ∧
    (∀ x, x ∈ s.heap.freed → ¬ Entitled s (.gc x)) := by
  obtain ⟨⟨K, inv⟩, _⟩ := history_inv hs
  have hp := inv.pl
  have hmem : ∀ x, x ∈ freeHeap s.heap ↔ s.heap.alive x = true := by
    intro x
    simp only [freeHeap, List.mem_append, mem_frameLists]
    constructor
    · rintro (((hx | hx) | hx) | ⟨d, -, hx | hx | hx⟩) <;> exact hp.alive hx
    · intro hx
      obtain ⟨l, hl⟩ := hp.placed x hx
      have hle : ∀ d, (x ∈ s.heap.lists (.alloced d) ∨ x ∈ s.heap.lists (.marked d) ∨
          x ∈ s.heap.lists (.unmarked d)) → d ≤ s.heap.top := by
        intro d hd
        by_contra hn
        obtain ⟨h1, h2, h3⟩ := hp.above d (by omega)
        simp [h1, h2, h3] at hd
      cases l with
      | alloced d => exact .inr ⟨d, hle d (.inl hl), .inl hl⟩
      | marked d => exact .inr ⟨d, hle d (.inr (.inl hl)), .inr (.inl hl)⟩
      | unmarked d => exact .inr ⟨d, hle d (.inr (.inr hl)), .inr (.inr hl)⟩
      | gcMarked => tauto
      | gcUnmarked => tauto
      | gcFree => tauto
  refine ⟨nodup_app ?_ hp.book.1 fun x h1 h2 => ?_, fun x => ?_, fun x hx he => ?_⟩
  · unfold freeHeap
    refine nodup_app (nodup_app (nodup_app (hp.nodup _) (hp.nodup _) fun x h1 h2 => ?_) (hp.nodup _)
      fun x h1 h2 => ?_) (nodup_frameLists hp _) fun x h1 h2 => ?_
    · exact LId.noConfusion (hp.disj h1 h2)
    · rcases List.mem_append.mp h1 with h1 | h1 <;> exact LId.noConfusion (hp.disj h1 h2)
    · obtain ⟨d, -, h2⟩ := mem_frameLists.mp h2
      simp only [List.mem_append, or_assoc] at h1
      rcases h1 with h1 | h1 | h1 <;> rcases h2 with h2 | h2 | h2 <;>
        exact LId.noConfusion (hp.disj h1 h2)
  · rw [hmem] at h1
    rw [hp.book.2] at h2
    simp [h1] at h2
  · rw [List.mem_append, hmem, hp.book.2]
    by_cases hx : s.heap.alive x = true
    · simp [hx, hp.fresh x hx]
    · simp [hx]
  · have h1 := inv.accLive (entitled_acc inv he)
    have h2 := ((hp.book.2 x).mp hx).2
    simp [h1] at h2

/-- Operations after which the collector has freed something. -/
def freeOps : List Op :=
  [.push false, .newRef 1, .newRef 2, .compact false [.gc 1], .gc, .gc, .gc, .gc, .pop (.gc 1)]

example : ((run true start freeOps).map fun s => (s.heap.freed, freeHeap s.heap, s.heap.nextA)) =
    some ([0], [1], 2) := by
  decide +kernel

/-- The history of `C09_violated` continued. -/
def doubleFreeOps : List Op :=
  badOps ++ [.compact false [.gc 5], .newRef 0, .newRef 0, .compact false [], .newRef 0, .newRef 0, .newRef 0, .newRef 0, .newRef 0, .newRef 0, .newRef 0, .newRef 0, .newRef 0, .newRef 0]

theorem doubleFreeOps_run : ((run false start doubleFreeOps).map fun s =>
    s.heap.freed.count 5) = some 2 := by
  decide +kernel

/-- C10 fails without the restriction: there is a legal history in which an object is freed
twice. -/
theorem C10_violated : ∃ s, History (fun _ _ => False) s ∧ ¬ s.heap.freed.Nodup := by
  have h := doubleFreeOps_run
  cases hr : run false start doubleFreeOps with
  | none => rw [hr] at h; simp at h
  | some s =>
    rw [hr] at h
    simp only [Option.map_some, Option.some.injEq] at h
    refine ⟨s, run_any hr .start, fun hn => ?_⟩
    have := List.nodup_iff_count.mp hn 5
    omega

/-! ### C11 -/

/-- FbleValueFullGc, value.c:1827-1834: takes `h` to `h'`. -/
inductive FullGc : Heap → Heap → Prop where
  | done {h} : fullGcDone h = true → FullGc h h
  | step {h h'} : fullGcDone h = false → FullGc (incrGc h) h' → FullGc h h'

/-- A frame with one object that is not kept. -/
def leakOps : List Op := [.push false, .newRef 0, .compact false []]

theorem leakOps_run : ((run true start leakOps).map fun s =>
    (s.roots 0, s.roots 1, (incrGc s.heap).top, fullGcDone s.heap, fullGcDone (incrGc s.heap),
      (incrGc s.heap).alive 0)) = some ([], [], 1, false, true, true) := by
  decide +kernel

/-- C11 fails: FbleValueFullGc can return while an object that is reachable from nothing is still
allocated.  It stops as soon as the last collection has begun. -/
theorem C11_violated : ∃ s h' x, History PopsMarkingFrame s ∧ FullGc s.heap h' ∧
    h'.alive x = true ∧ (∀ v, Entitled { s with heap := h' } v → ∃ n, v = .imm n) := by
  have h := leakOps_run
  cases hr : run true start leakOps with
  | none => rw [hr] at h; simp at h
  | some s =>
    rw [hr] at h
    simp only [Option.map_some, Option.some.injEq, Prod.mk.injEq] at h
    obtain ⟨r0, r1, ht, d0, d1, ha⟩ := h
    refine ⟨s, incrGc s.heap, 0, run_history hr .start, .step d0 (.done d1), ha, fun v hv => ?_⟩
    induction hv with
    | @packed n => exact ⟨n, rfl⟩
    | @handed d v hd hv =>
      have hd : d ≤ 1 := by simpa [ht] using hd
      have : d = 0 ∨ d = 1 := by omega
      rcases this with rfl | rfl
      · exact absurd (r0 ▸ hv) (by simp)
      · exact absurd (r1 ▸ hv) (by simp)
    | field _ hf ih =>
      obtain ⟨n, rfl⟩ := ih
      exact hf.elim

end Verif.Gc
