import Verif.Profile.Thm
/-
C90: what the profile report says, /repo/lib/profile.c:713-833.

SIMPLIFIED: the floating point numbers (the part of blocks executed, the part of the time that is self time
of a block) are parameters of the text.  The contents of scratch buffers are arbitrary.
-/
namespace Verif.Profile

/-- A line for a block, profile.c:425-438 with `block`. -/
structure BlockLine where
  id : Nat
  count : Nat
  time : Nat
  self : Nat
deriving DecidableEq, Repr

/-- The part of the call graph for a block, profile.c:796-814. -/
structure Entry where
  callers : List Data
  block : BlockLine
  callees : List Data
deriving DecidableEq, Repr

/-- The report, profile.c:753-832; `covered` and `total` are for the percentages. -/
structure Report where
  covered : Nat
  total : Nat
  blocks : Nat
  calls : List BlockLine
  selfs : List (Nat × Nat)
  graph : List Entry
  locations : List Nat
deriving DecidableEq, Repr

/-- The inner loop over the callees of block `i`, profile.c:738-745. -/
def addCallers (i : Nat) : List Data → (Nat → List Data) → Nat → List Data
  | [], cs => cs
  | d :: ds, cs => addCallers i ds (upd cs d.id (cs d.id ++ [⟨i, d.count, d.time⟩]))

/-- The loop over the blocks, profile.c:730-745: the callers of each block. -/
def allCallers (s : St) : List Nat → (Nat → List Data) → Nat → List Data
  | [], cs => cs
  | i :: is, cs => allCallers s is (addCallers i ((s.callees i).map s.data) cs)

/-- What PrintCallData is given of a block, profile.c:428-431. -/
def blockLine (s : St) (d : Data) : BlockLine := ⟨d.id, d.count, d.time, s.self d.id⟩

/-- FbleGenerateProfileReport, profile.c:713-833. -/
def report (scratch : List Data → List Data) (s : St) : Report :=
  let ids := List.range s.blocks
  let records := ids.map fun i => (⟨i, s.count i, s.time i⟩ : Data)
  let callers := allCallers s ids fun _ => []
  let calls := sortData descending records (scratch records)
  let fake := ids.map fun i => (⟨i, 0, s.self i⟩ : Data)
  let selfs := sortData descending fake (scratch fake)
  { covered := (records.filter fun d => decide (0 < d.count)).length
    total := (ids.map s.self).sum
    blocks := s.blocks
    calls := calls.map (blockLine s)
    selfs := selfs.map fun d => (d.id, d.time)
    graph := (calls.filter fun d => decide (0 < s.count d.id)).map fun d =>
      let callees := (s.callees d.id).map s.data
      ⟨sortData ascending (callers d.id) (scratch (callers d.id)), blockLine s d, sortData descending callees (scratch callees)⟩
    locations := ids }

/-! ### The text -/

/-- `%8lu`, and `%5lu` with 5. -/
def padTo (k : Nat) (cs : List Char) : List Char := List.replicate (k - cs.length) ' ' ++ cs

/-- A number in decimal. -/
def dec (n : Nat) : List Char := (Nat.repr n).toList

/-- PrintBlockName, profile.c:408-411. -/
def blockName (names : Nat → List Char) (id : Nat) : List Char :=
  let h := Nat.toDigits 16 id
  names id ++ "[".toList ++ List.replicate (4 - h.length) '0' ++ h ++ "X]".toList

/-- PrintCallData for a block, profile.c:425-438. -/
def blockText (names : Nat → List Char) (l : BlockLine) : List Char :=
  "** ".toList ++ padTo 8 (dec l.count) ++ " ".toList ++ padTo 8 (dec l.time) ++ " ".toList ++ padTo 8 (dec l.self) ++ "  ".toList ++ blockName names l.id ++ " **\n".toList

/-- PrintCallData for a caller or callee, profile.c:425-438. -/
def callText (names : Nat → List Char) (d : Data) : List Char :=
  "   ".toList ++ padTo 8 (dec d.count) ++ " ".toList ++ padTo 8 (dec d.time) ++ " ".toList ++ padTo 8 [] ++ "  ".toList ++ blockName names d.id ++ "   \n".toList

/-- The fprintf calls of FbleGenerateProfileReport, profile.c:756-832.  `part a b` is 100 a/b as printed with
two decimals, `where_` the location of a block. -/
def reportText (part : Nat → Nat → List Char) (names where_ : Nat → List Char) (r : Report) : List Char :=
  "Profile Report\n==============\nblocks executed: ".toList ++ part r.covered r.blocks ++ "% of ".toList ++ dec r.blocks ++
  "\n\nFlat Profile by Overall Time\n----------------------------\n   ".toList ++
  padTo 8 "count".toList ++ " ".toList ++ padTo 8 "time".toList ++ " ".toList ++ padTo 8 "self".toList ++ "  block\n".toList ++
  r.calls.flatMap (blockText names) ++
  "\nFlat Profile by Self Time\n-------------------------\n".toList ++ padTo 5 "%".toList ++ " ".toList ++ padTo 8 "self".toList ++ "  block\n".toList ++
  r.selfs.flatMap (fun l => padTo 5 (part l.2 r.total) ++ " ".toList ++ padTo 8 (dec l.2) ++ "  ".toList ++ blockName names l.1 ++ "\n".toList) ++
  "\nCall Graph\n----------\n   ".toList ++ padTo 8 "count".toList ++ " ".toList ++ padTo 8 "time".toList ++ "  block\n".toList ++
  r.graph.flatMap (fun e => e.callers.flatMap (callText names) ++ blockText names e.block ++ e.callees.flatMap (callText names) ++ "-------------------------------\n".toList) ++
  "\nBlock Locations\n---------------\n".toList ++
  r.locations.flatMap (fun i => blockName names i ++ ": ".toList ++ where_ i ++ "\n".toList) ++ "\n".toList

/-! ### Every record was counted -/

theorem charge_keeps (t : Nat) : ∀ (r : List (Nat × Nat)) (seen : List Nat) (s : St),
    (charge t seen r s).callees = s.callees ∧ ∀ a, ((charge t seen r s).data a).count = (s.data a).count
  | [], _, s => ⟨rfl, fun _ => rfl⟩
  | (c, a) :: r, seen, s => by
    simp only [charge]
    refine ⟨(charge_keeps t r _ _).1.trans ?_, fun x => ((charge_keeps t r _ _).2 x).trans ?_⟩
    · split <;> rfl
    · split <;> simp only [upd] <;> split <;> simp_all

theorem popSamples_keeps : ∀ (n : Nat) (s : St), (popSamples n s).callees = s.callees ∧ (popSamples n s).data = s.data
  | 0, s => ⟨rfl, rfl⟩
  | n + 1, s => by
    simp only [popSamples]
    split
    · exact ⟨rfl, rfl⟩
    · exact ⟨(popSamples_keeps n _).1, (popSamples_keeps n _).2⟩

/-- There are no records of calls that were not made. -/
def Counted (s : St) : Prop := ∀ c a, a ∈ s.callees c → 0 < (s.data a).count

theorem counted_countData {s : St} (h : ∀ c a, a ∈ s.callees c → a = x ∨ 0 < (s.data a).count) : Counted (countData s x) := by
  intro c a ha
  simp only [countData, upd]
  split
  · simp
  · exact (h c a ha).resolve_left ‹_›

theorem counted_enter {s : St} (ht : Tidy s) (h : Counted s) (b : Nat) (r : Bool) : Counted (enter s b r) := by
  unfold enter
  split
  · exact h
  · rename_i caller exit rest _
    have hp : (prepare s b caller).callees = s.callees ∧ (prepare s b caller).data = s.data ∧ (prepare s b caller).nextData = s.nextData := by
      simp only [prepare, resize]
      split <;> exact ⟨rfl, rfl, rfl⟩
    generalize prepare s b caller = s' at hp
    obtain ⟨h1, h2, h4⟩ := hp
    have h' : Counted s' := by intro c a; rw [h1, h2]; exact h c a
    have ht' : Tidy s' := ⟨fun ha => by rw [h4]; rw [h1] at ha; exact ht.addr ha, fun ha hb => by rw [h1] at ha hb; exact ht.uniq ha hb, fun c => by rw [h1, h2]; exact ht.sorted c⟩
    unfold enterFrom
    split
    · exact counted_countData (s := s') fun c a ha => .inr (h' c a ha)
    · refine counted_countData (s := (getCallData s' caller b).1) fun c a ha => ?_
      rcases (getCallData_spec ht' caller b).old with ⟨e, _⟩ | ⟨_, e1, e2, e3, e4, _⟩
      · rw [e] at ha ⊢
        exact .inr (h' c a ha)
      · by_cases hc : a = (getCallData s' caller b).2
        · exact .inl hc
        · right
          have hm : a ∈ s'.callees c := by
            by_cases hcc : c = caller
            · subst hcc
              exact ((e3 a).mp ha).resolve_left hc
            · rw [e4 c hcc] at ha; exact ha
          rw [e2, upd_ne _ _ hc]
          exact h' c a hm

theorem counted_run {n ops} (h : Legal n ops) : Counted (run n ops) := by
  induction ops with
  | nil => intro c a ha; simp [run, initial] at ha
  | cons op ops ih =>
    have hi := ih h.1
    have ht := (run_inv h.1).tidy
    simp only [run]
    cases op with
    | enter b => exact counted_enter ht hi b false
    | replace b => exact counted_enter ht hi b true
    | exit =>
      simp only [step, exitBlock]
      split
      · exact hi
      · rename_i e rest _
        intro c a ha
        have := popSamples_keeps e (run n ops)
        simp only at ha ⊢
        rw [this.1] at ha
        rw [this.2]
        exact hi c a ha
    | sample t =>
      simp only [step, sample]
      split
      · exact hi
      · intro c a ha
        simp only at ha ⊢
        rw [(charge_keeps _ _ _ _).1] at ha
        rw [(charge_keeps _ _ _ _).2]
        exact hi c a ha
    | addBlock =>
      simp only [step, addBlock]
      intro c a ha
      simp only [upd] at ha
      split at ha
      · simp at ha
      · exact hi c a ha

/-! ### Callers -/

theorem addCallers_mem (i : Nat) : (ds : List Data) → (cs : Nat → List Data) → (b : Nat) → (x : Data) →
    (x ∈ addCallers i ds cs b ↔ x ∈ cs b ∨ ∃ d ∈ ds, d.id = b ∧ x = ⟨i, d.count, d.time⟩)
  | [], cs, b, x => by simp [addCallers]
  | d :: ds, cs, b, x => by
    simp only [addCallers, addCallers_mem i ds, upd]
    by_cases hb : b = d.id
    · simp only [hb, if_true, List.mem_append, List.mem_singleton, List.mem_cons, exists_eq_or_imp]
      tauto
    · have : ¬ d.id = b := fun e => hb e.symm
      simp only [hb, if_false, List.mem_cons, exists_eq_or_imp, this, false_and, false_or]

theorem allCallers_mem (s : St) : (is : List Nat) → (cs : Nat → List Data) → (b : Nat) → (x : Data) →
    (x ∈ allCallers s is cs b ↔ x ∈ cs b ∨ ∃ i ∈ is, ∃ d ∈ (s.callees i).map s.data, d.id = b ∧ x = ⟨i, d.count, d.time⟩)
  | [], cs, b, x => by simp [allCallers]
  | i :: is, cs, b, x => by
    simp only [allCallers, allCallers_mem s is, addCallers_mem, List.mem_cons, exists_eq_or_imp]
    exact or_assoc

/-- The callers of a block are in the order of their ids. -/
theorem addCallers_sorted (i : Nat) : (ds : List Data) → (cs : Nat → List Data) → (b : Nat) → ds.Pairwise (fun x y => x.id < y.id) → (cs b).Pairwise (fun x y => x.id < y.id) →
    (∀ x ∈ cs b, x.id < i) → (addCallers i ds cs b).Pairwise (fun x y => x.id < y.id) ∧ ∀ x ∈ addCallers i ds cs b, x.id < i + 1
  | [], cs, b, _, h2, h3 => ⟨h2, fun x hx => Nat.lt_succ_of_lt (h3 x hx)⟩
  | d :: ds, cs, b, h1, h2, h3 => by
    simp only [addCallers]
    rw [List.pairwise_cons] at h1
    by_cases hb : b = d.id
    · subst hb
      -- no later record is for this block
      have key : ∀ (ds : List Data) (cs : Nat → List Data), (∀ y ∈ ds, d.id < y.id) → addCallers i ds cs d.id = cs d.id := by
        intro ds
        induction ds with
        | nil => intro cs _; rfl
        | cons e es ih =>
          intro cs hy
          simp only [addCallers]
          rw [ih _ fun y h => hy y (by simp [h]), upd_ne _ _ (Nat.ne_of_lt (hy e (by simp)))]
      rw [key ds _ h1.1, upd_same]
      refine ⟨List.pairwise_append.mpr ⟨h2, by simp, ?_⟩, ?_⟩
      · intro x hx y hy
        simp at hy
        rw [hy]; exact h3 x hx
      · intro x hx
        rcases List.mem_append.mp hx with hx | hx
        · exact Nat.lt_succ_of_lt (h3 x hx)
        · simp at hx; rw [hx]; exact Nat.lt_succ_self _
    · exact addCallers_sorted i ds _ b h1.2 (by rw [upd_ne _ _ hb]; exact h2) (by rw [upd_ne _ _ hb]; exact h3)

theorem allCallers_sorted (s : St) (hs : ∀ c, ((s.callees c).map s.data).Pairwise (fun x y => x.id < y.id)) (b : Nat) : (k i : Nat) → (cs : Nat → List Data) → (cs b).Pairwise (fun x y => x.id < y.id) →
    (∀ x ∈ cs b, x.id < i) → (allCallers s (List.range' i k) cs b).Pairwise (fun x y => x.id < y.id)
  | 0, i, cs, h1, _ => h1
  | k + 1, i, cs, h1, h2 => by
    obtain ⟨h3, h4⟩ := addCallers_sorted i ((s.callees i).map s.data) cs b (hs i) h1 h2
    simp only [List.range'_succ, allCallers]
    exact allCallers_sorted s hs b k (i + 1) _ h3 h4

/-! ### Sorted lists -/

/-- Longest time first; those of equal time in the order of their ids. -/
def Falling (xs : List Data) : Prop := xs.Pairwise fun x y => y.time < x.time ∨ (y.time = x.time ∧ x.id < y.id)
/-- Shortest time first; those of equal time in the order of their ids. -/
def Rising (xs : List Data) : Prop := xs.Pairwise fun x y => x.time < y.time ∨ (x.time = y.time ∧ x.id < y.id)

theorem stable_ids {data out : List Data} (hd : data.Pairwise fun x y => x.id < y.id) (hf : ∀ k, out.filter (·.time == k) = data.filter (·.time == k)) {x y : Data} (hs : [x, y].Sublist out)
    (ht : x.time = y.time) : x.id < y.id := by
  have h1 := hs.filter (·.time == x.time)
  rw [hf] at h1
  have h2 : [x, y].Sublist data := by
    have : [x, y].filter (·.time == x.time) = [x, y] := by simp [ht]
    rw [this] at h1
    exact h1.trans List.filter_sublist
  simpa using hd.sublist h2

theorem sort_falling {data scratch : List Data} (hl : scratch.length = data.length) (hd : data.Pairwise fun x y => x.id < y.id) :
    (sortData descending data scratch).Perm data ∧ Falling (sortData descending data scratch) := by
  obtain ⟨h1, h2, h3⟩ := (C42_sort data scratch hl).2
  refine ⟨h1, ?_⟩
  unfold Falling
  rw [List.pairwise_iff_forall_sublist] at h2 ⊢
  intro x y hs
  have := h2 hs
  rcases Nat.lt_or_ge y.time x.time with h | h
  · exact .inl h
  · exact .inr ⟨by omega, stable_ids hd h3 hs (by omega)⟩

theorem sort_rising {data scratch : List Data} (hl : scratch.length = data.length) (hd : data.Pairwise fun x y => x.id < y.id) :
    (sortData ascending data scratch).Perm data ∧ Rising (sortData ascending data scratch) := by
  obtain ⟨h1, h2, h3⟩ := (C42_sort data scratch hl).1
  refine ⟨h1, ?_⟩
  unfold Rising
  rw [List.pairwise_iff_forall_sublist] at h2 ⊢
  intro x y hs
  have := h2 hs
  rcases Nat.lt_or_ge x.time y.time with h | h
  · exact .inl h
  · exact .inr ⟨by omega, stable_ids hd h3 hs (by omega)⟩

/-! ### The report -/

/-- The records of one list of calls say what was called, how often and for how long. -/
def Says (made time : Nat → Nat) (xs : List Data) : Prop :=
  (xs.map (·.id)).Nodup ∧ ∀ d : Data, d ∈ xs ↔ 0 < made d.id ∧ d.count = made d.id ∧ d.time = time d.id

theorem Says.perm {made time : Nat → Nat} {xs ys : List Data} (h : Says made time xs) (hp : ys.Perm xs) : Says made time ys :=
  ⟨(hp.map _).nodup_iff.mpr h.1, fun d => hp.mem_iff.trans (h.2 d)⟩

theorem ids_nodup {xs : List Data} (h : xs.Pairwise fun x y => x.id < y.id) : (xs.map (·.id)).Nodup := by
  rw [List.nodup_iff_pairwise_ne, List.pairwise_map]
  exact h.imp fun h => Nat.ne_of_lt h

theorem callees_says {n ops} (h : Legal n ops) (c : Nat) : Says (fun b => callsMade c b ops) (fun b => callTime c b ops) (callList (run n ops) c) := by
  have inv := run_inv h
  refine ⟨ids_nodup (C41_lookup h c 0).1, fun d => ⟨fun hd => ?_, fun ⟨h1, h2, h3⟩ => ?_⟩⟩
  · obtain ⟨a, ha, rfl⟩ := List.mem_map.mp hd
    obtain ⟨e1, e2⟩ := inv.rcd ha
    have := counted_run h c a ha
    rw [e1] at this
    exact ⟨this, e1, e2⟩
  · have : ∃ a ∈ (run n ops).callees c, ((run n ops).data a).id = d.id := by
      by_contra hc
      push Not at hc
      have := (inv.non c d.id hc).1
      simp only at h1
      omega
    obtain ⟨a, ha, he⟩ := this
    obtain ⟨e1, e2⟩ := inv.rcd ha
    refine List.mem_map.mpr ⟨a, ha, ?_⟩
    rw [he] at e1 e2
    cases hx : (run n ops).data a
    cases d
    simp_all

theorem callers_says {n ops} (h : Legal n ops) (b : Nat) :
    let cs := allCallers (run n ops) (List.range (run n ops).blocks) (fun _ => []) b
    cs.Pairwise (fun x y => x.id < y.id) ∧ Says (fun c => callsMade c b ops) (fun c => callTime c b ops) cs := by
  intro cs
  have hs : cs.Pairwise (fun x y => x.id < y.id) := by
    have := allCallers_sorted (run n ops) (fun c => (C41_lookup h c 0).1) b (run n ops).blocks 0 (fun _ => []) (by simp) (by simp)
    rwa [← List.range_eq_range'] at this
  refine ⟨hs, ids_nodup hs, fun d => ?_⟩
  simp only [cs, allCallers_mem, List.not_mem_nil, false_or, List.mem_range]
  constructor
  · rintro ⟨i, _, x, hx, rfl, rfl⟩
    have := ((callees_says h i).2 x).mp hx
    exact this
  · rintro ⟨h1, h2, h3⟩
    have hm := ((callees_says h d.id).2 ⟨b, d.count, d.time⟩).mpr ⟨h1, h2, h3⟩
    refine ⟨d.id, ?_, _, hm, rfl, rfl⟩
    by_contra hge
    have := (run_inv h).zero d.id (Nat.le_of_not_lt hge)
    obtain ⟨a, ha, _⟩ := List.mem_map.mp hm
    rw [this.2.2.2] at ha
    cases ha

/-- The line of a block says how often it was entered, for how long it was on the stack and for how long it was running. -/
def LineOf (ops : List Op) (l : BlockLine) : Prop :=
  l.count = entries l.id ops + (if l.id = 0 then 1 else 0) ∧ l.time = blockTime l.id ops + (if l.id = 0 then allTime ops else 0) ∧ l.self = selfTime l.id ops

/-- C90. After every well nested history, the report lists each block once by overall time and once by self
time, the longest first, with its counts and times; and in the order of the overall times it lists for each
block that was entered all calls to it and all calls it made, each once and with their counts and times. -/
theorem C90_report {n ops} (h : Legal n ops) {scratch : List Data → List Data} (hs : ∀ xs, (scratch xs).length = xs.length) :
    let r := report scratch (run n ops)
    (r.blocks = blocksAfter n ops ∧ r.total = allTime ops ∧ r.covered = ((List.range r.blocks).filter fun b => decide (b = 0 ∨ 0 < entries b ops)).length ∧ r.locations = List.range r.blocks) ∧
    ((r.calls.map (·.id)).Perm (List.range r.blocks) ∧ (∀ l ∈ r.calls, LineOf ops l) ∧ r.calls.Pairwise fun x y => y.time < x.time ∨ (y.time = x.time ∧ x.id < y.id)) ∧
    ((r.selfs.map (·.1)).Perm (List.range r.blocks) ∧ (∀ l ∈ r.selfs, l.2 = selfTime l.1 ops) ∧ r.selfs.Pairwise fun x y => y.2 < x.2 ∨ (y.2 = x.2 ∧ x.1 < y.1)) ∧
    (r.graph.map (·.block) = r.calls.filter (fun l => decide (0 < l.count)) ∧ ∀ e ∈ r.graph,
      Says (fun c => callsMade c e.block.id ops) (fun c => callTime c e.block.id ops) e.callers ∧ Rising e.callers ∧
      Says (fun b => callsMade e.block.id b ops) (fun b => callTime e.block.id b ops) e.callees ∧ Falling e.callees) := by
  intro r
  have inv := run_inv h
  obtain ⟨t1, t2, t3, t4, t5⟩ := C40_times h
  have hrange : (List.range (run n ops).blocks).Pairwise (· < ·) := List.pairwise_lt_range
  have hrec : ((List.range (run n ops).blocks).map fun i => (⟨i, (run n ops).count i, (run n ops).time i⟩ : Data)).Pairwise fun x y => x.id < y.id := by
    rw [List.pairwise_map]; exact hrange
  have hfake : ((List.range (run n ops).blocks).map fun i => (⟨i, 0, (run n ops).self i⟩ : Data)).Pairwise fun x y => x.id < y.id := by
    rw [List.pairwise_map]; exact hrange
  obtain ⟨p1, p2⟩ := sort_falling (hs _) hrec
  obtain ⟨q1, q2⟩ := sort_falling (hs _) hfake
  have hline : ∀ d ∈ sortData descending ((List.range (run n ops).blocks).map fun i => (⟨i, (run n ops).count i, (run n ops).time i⟩ : Data))
      (scratch ((List.range (run n ops).blocks).map fun i => (⟨i, (run n ops).count i, (run n ops).time i⟩ : Data))), d = ⟨d.id, (run n ops).count d.id, (run n ops).time d.id⟩ := by
    intro d hd
    obtain ⟨i, _, rfl⟩ := List.mem_map.mp (p1.mem_iff.mp hd)
    rfl
  refine ⟨⟨inv.bl, t2, ?_, rfl⟩, ⟨?_, ?_, ?_⟩, ⟨?_, ?_, ?_⟩, ?_, ?_⟩
  · simp only [r, report, List.filter_map, List.length_map, Function.comp_def]
    congr 1
    apply List.filter_congr
    intro b _
    rw [inv.cnt]
    congr 1
    by_cases hb : b = 0 <;> simp [hb]
  · simp only [r, report, List.map_map, Function.comp_def, blockLine]
    have := p1.map (·.id)
    simpa [List.map_map, Function.comp_def] using this
  · intro l hl
    obtain ⟨d, hd, rfl⟩ := List.mem_map.mp hl
    rw [hline d hd]
    exact ⟨inv.cnt _, inv.tim _, inv.slf _⟩
  · simp only [r, report, List.pairwise_map, blockLine]
    exact p2
  · simp only [r, report, List.map_map, Function.comp_def]
    have := q1.map (·.id)
    simpa [List.map_map, Function.comp_def] using this
  · intro l hl
    obtain ⟨d, hd, rfl⟩ := List.mem_map.mp hl
    obtain ⟨i, _, rfl⟩ := List.mem_map.mp (q1.mem_iff.mp hd)
    exact inv.slf _
  · simp only [r, report, List.pairwise_map]
    exact q2
  · simp only [r, report, List.map_map, List.filter_map, Function.comp_def, blockLine]
    refine congrArg (List.map _) (List.filter_congr fun d hd => ?_)
    rw [hline d hd]
    rfl
  · intro e he
    obtain ⟨d, hd, rfl⟩ := List.mem_map.mp he
    obtain ⟨c1, c2⟩ := callers_says h d.id
    obtain ⟨u1, u2⟩ := sort_rising (hs _) c1
    obtain ⟨v1, v2⟩ := sort_falling (hs (((run n ops).callees d.id).map (run n ops).data)) (C41_lookup h d.id 0).1
    exact ⟨c2.perm u1, u2, (callees_says h d.id).perm v1, v2⟩

/-- No block is looked up that is not there. -/
theorem C90_blocks {n ops} (h : Legal n ops) {scratch : List Data → List Data} (hs : ∀ xs, (scratch xs).length = xs.length) :
    let r := report scratch (run n ops)
    (∀ c, ∀ d ∈ callList (run n ops) c, d.id < r.blocks) ∧ (∀ l ∈ r.calls, l.id < r.blocks) ∧ (∀ l ∈ r.selfs, l.1 < r.blocks) ∧
      ∀ e ∈ r.graph, e.block.id < r.blocks ∧ (∀ d ∈ e.callers, d.id < r.blocks) ∧ ∀ d ∈ e.callees, d.id < r.blocks := by
  intro r
  have inv := run_inv h
  obtain ⟨⟨_, _, _, _⟩, ⟨c1, _, _⟩, ⟨d1, _, _⟩, e1, e2⟩ := C90_report h hs
  have hc : ∀ c, ∀ d ∈ callList (run n ops) c, d.id < r.blocks := by
    intro c d hd
    obtain ⟨a, ha, rfl⟩ := List.mem_map.mp hd
    exact inv.cid ha
  have hl : ∀ l ∈ r.calls, l.id < r.blocks := fun l hl => List.mem_range.mp (c1.mem_iff.mp (List.mem_map_of_mem hl))
  refine ⟨hc, hl, fun l hl => List.mem_range.mp (d1.mem_iff.mp (List.mem_map_of_mem hl)), fun e he => ?_⟩
  have hb : e.block ∈ r.calls := by
    have : e.block ∈ r.graph.map (·.block) := List.mem_map_of_mem he
    rw [e1] at this
    exact (List.mem_filter.mp this).1
  obtain ⟨k1, _, k2, _⟩ := e2 e he
  refine ⟨hl _ hb, fun d hd => ?_, fun d hd => ?_⟩
  · obtain ⟨h1, h2, h3⟩ := (k1.2 d).mp hd
    have hm := ((callees_says h d.id).2 ⟨e.block.id, d.count, d.time⟩).mpr ⟨h1, h2, h3⟩
    by_contra hge
    have := (inv.zero d.id (Nat.le_of_not_lt hge)).2.2.2
    obtain ⟨a, ha, _⟩ := List.mem_map.mp hm
    rw [this] at ha
    cases ha
  · exact hc _ d (((callees_says h e.block.id).2 d).mpr ((k2.2 d).mp hd))

/-! ### An example -/

/-- Two blocks; the first calls the second twice and then itself, with samples in between. -/
def exampleOps : List Op := [.exit, .exit, .sample 5, .enter 1, .exit, .sample 3, .enter 2, .exit, .sample 2, .enter 2, .sample 1, .enter 1]

theorem exampleOps_legal : Legal 2 exampleOps := by
  simp [exampleOps, Legal, stackAfter, blocksAfter]

/-- The merge, with a bound on the length; to compute the example. -/
def mergeBy (le : Data → Data → Bool) : Nat → List Data → List Data → List Data
  | 0, xs, ys => xs ++ ys
  | n + 1, xs, ys =>
    match xs, ys with
    | [], ys => ys
    | x :: xs, [] => x :: xs
    | x :: xs, y :: ys => if le x y then x :: mergeBy le n xs (y :: ys) else y :: mergeBy le n (x :: xs) ys

theorem mergeBy_merge (le : Data → Data → Bool) : (n : Nat) → (xs ys : List Data) → xs.length + ys.length ≤ n → mergeBy le n xs ys = merge le xs ys
  | 0, xs, ys, h => by
    have h1 : xs = [] := List.eq_nil_of_length_eq_zero (by omega)
    have h2 : ys = [] := List.eq_nil_of_length_eq_zero (by omega)
    subst h1 h2
    simp [mergeBy, merge]
  | n + 1, [], ys, h => by simp [mergeBy, merge]
  | n + 1, x :: xs, [], h => by simp [mergeBy, merge]
  | n + 1, x :: xs, y :: ys, h => by
    simp only [List.length_cons] at h
    simp only [mergeBy, merge]
    rw [mergeBy_merge le n xs (y :: ys) (by simp; omega), mergeBy_merge le n (x :: xs) ys (by simp; omega)]

/-- The sort, with a bound on the depth; to compute the example. -/
def quick (le : Data → Data → Bool) : Nat → List Data → List Data
  | 0, xs => xs
  | n + 1, xs => if xs.length < 2 then xs else mergeBy le xs.length (quick le n (xs.take (xs.length / 2))) (quick le n (xs.drop (xs.length / 2)))

theorem mergeBy_length (le : Data → Data → Bool) : (n : Nat) → (xs ys : List Data) → (mergeBy le n xs ys).length = xs.length + ys.length
  | 0, xs, ys => by simp [mergeBy]
  | n + 1, [], ys => by simp [mergeBy]
  | n + 1, x :: xs, [] => by simp [mergeBy]
  | n + 1, x :: xs, y :: ys => by
    simp only [mergeBy]
    split <;> simp only [List.length_cons, mergeBy_length le n] <;> omega

theorem quick_length (le : Data → Data → Bool) : (n : Nat) → (a : List Data) → (quick le n a).length = a.length
  | 0, a => rfl
  | n + 1, a => by
    simp only [quick]
    split
    · rfl
    · simp only [mergeBy_length, quick_length le n, List.length_take, List.length_drop]; omega

theorem mergeBy_eq (le : Data → Data → Bool) (n : Nat) (a : List Data) : mergeBy le a.length (quick le n (a.take (a.length / 2))) (quick le n (a.drop (a.length / 2))) =
    merge le (quick le n (a.take (a.length / 2))) (quick le n (a.drop (a.length / 2))) := by
  apply mergeBy_merge
  simp only [quick_length, List.length_take, List.length_drop]; omega

theorem msort_quick (le : Data → Data → Bool) : (n : Nat) → (p : Bool) → (a b : List Data) → a.length ≤ n → b.length = a.length → (if p then (msort le p a b).1 else (msort le p a b).2) = quick le n a
  | n, p, a, b, hn, hb => by
    rw [msort]
    by_cases h0 : a.length = 0
    · have : a = [] := List.eq_nil_of_length_eq_zero h0
      subst this
      have : b = [] := List.eq_nil_of_length_eq_zero hb
      subst this
      cases n <;> cases p <;> simp [quick]
    · cases n with
      | zero => omega
      | succ n =>
        by_cases h1 : a.length = 1
        · cases p <;> simp [quick, h1]
        · have hq : ¬ a.length < 2 := by omega
          have r1 := msort_quick le n (!p) (a.take (a.length / 2)) (b.take (a.length / 2)) (by simp; omega) (by simp; omega)
          have r2 := msort_quick le n (!p) (a.drop (a.length / 2)) (b.drop (a.length / 2)) (by simp; omega) (by simp; omega)
          cases p <;> simp_all [quick, mergeBy_eq] <;> intro <;> omega

theorem sortData_quick (le : Data → Data → Bool) (xs : List Data) : sortData le xs xs = quick le xs.length xs := by
  simpa [sortData] using msort_quick le xs.length true xs xs (Nat.le_refl _) rfl

/-- The report with another sort. -/
def reportBy (sort : (Data → Data → Bool) → Nat → List Data → List Data) (s : St) : Report :=
  let ids := List.range s.blocks
  let records := ids.map fun i => (⟨i, s.count i, s.time i⟩ : Data)
  let callers := allCallers s ids fun _ => []
  let calls := sort descending records.length records
  let fake := ids.map fun i => (⟨i, 0, s.self i⟩ : Data)
  let selfs := sort descending fake.length fake
  { covered := (records.filter fun d => decide (0 < d.count)).length
    total := (ids.map s.self).sum
    blocks := s.blocks
    calls := calls.map (blockLine s)
    selfs := selfs.map fun d => (d.id, d.time)
    graph := (calls.filter fun d => decide (0 < s.count d.id)).map fun d =>
      let callees := (s.callees d.id).map s.data
      ⟨sort ascending (callers d.id).length (callers d.id), blockLine s d, sort descending callees.length callees⟩
    locations := ids }

def exampleReport : Report where
  covered := 3
  total := 11
  blocks := 3
  calls := [⟨0, 1, 11, 0⟩, ⟨1, 2, 11, 6⟩, ⟨2, 2, 5, 5⟩]
  selfs := [(1, 6), (2, 5), (0, 0)]
  graph := [⟨[], ⟨0, 1, 11, 0⟩, [⟨1, 1, 11⟩]⟩, ⟨[⟨1, 1, 5⟩, ⟨0, 1, 11⟩], ⟨1, 2, 11, 6⟩, [⟨1, 1, 5⟩, ⟨2, 2, 5⟩]⟩, ⟨[⟨1, 2, 5⟩], ⟨2, 2, 5, 5⟩, []⟩]
  locations := [0, 1, 2]

theorem C90_example : Legal 2 exampleOps ∧ report id (run 2 exampleOps) = exampleReport ∧
    (exampleReport.graph.flatMap fun e => e.callees.flatMap (callText fun _ => "f".toList)) = "          1       11           f[0001X]   \n          1        5           f[0001X]   \n          2        5           f[0002X]   \n".toList := by
  refine ⟨exampleOps_legal, ?_, by decide +kernel⟩
  have e : report id (run 2 exampleOps) = reportBy quick (run 2 exampleOps) := by
    unfold report
    simp only [sortData_quick, id]
    rfl
  rw [e]
  decide +kernel

end Verif.Profile
