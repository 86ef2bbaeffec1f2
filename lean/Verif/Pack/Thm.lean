import Verif.Pack.Conv
/-
Property theorems C01-C05, C46, C47 about value construction and access.
Vocabulary: `Denotes h w d` (Spec.lean) = "the value `w` is the algebraic data `d` in heap `h`";
`StructField h w i r` etc. (Heap.lean) = "calling the accessor returns `r`".
`poison` is the arbitrary result of C undefined behaviour; all theorems hold for every choice.
-/
namespace Verif.Pack

/-! ### C01 -/

/-- C01. Constructing a struct from any values (of whatever representation) and accessing any
field gives a value denoting that argument, and nothing else. -/
theorem C01_struct_field (poison : Word) {s : St} {args : List Word} {ds : List Data}
    (hg : Good s) (hs : 1 ≤ s.supply.length) (ha : All2 (Denotes s.heap) args ds) :
    ∃ w s', mkStruct poison args s = some (w, s') ∧ Denotes s'.heap w (.struct ds) ∧
      ∀ i (hi : i < ds.length),
        (∃ r, StructField s'.heap w i (.ok r) ∧ Denotes s'.heap r ds[i]) ∧
        (∀ a, StructField s'.heap w i a → ∃ r, a = .ok r ∧ Denotes s'.heap r ds[i]) := by
  obtain ⟨w, s', h1, m⟩ := mkStruct_made poison hg hs ha
  refine ⟨w, s', h1, m.denotes, fun i hi => ?_⟩
  obtain ⟨r, h2, h3⟩ := structField_denotes m.denotes hi
  exact ⟨⟨r, h2, h3⟩, fun a ha => ⟨r, ha.det h2, h3⟩⟩

/-- C01, for arguments with no finite meaning (functions, unassigned references, cyclic data):
the field read back is interchangeable with the argument: the same word, or another packed word
of the same data. -/
theorem C01_struct_field_same (poison : Word) {s : St} {args : List Word}
    (hg : Good s) (hs : 1 ≤ s.supply.length) (ha : ∀ a ∈ args, Legal a) :
    ∃ w s', mkStruct poison args s = some (w, s') ∧ s.heap.le s'.heap ∧
      ∀ i (hi : i < args.length), ∃ r, StructField s'.heap w i (.ok r) ∧ Same r args[i] := by
  unfold mkStruct
  rcases newStruct_spec poison args ha with ⟨w, es, h1, h2, h3⟩ | ⟨ub, h1⟩
  · rw [h1]
    refine ⟨w, s, rfl, Heap.le_refl _, fun i hi => ?_⟩
    have hl := h2.length_eq
    obtain ⟨r, h4, h5⟩ := structFieldStrict_packed (h := s.heap) h3 (i := i) (by omega)
    exact ⟨r, ⟨_, .packed h3.marker, h4⟩, .inr ⟨_, h5, h2.get i hi (by omega)⟩⟩
  · rw [h1]
    obtain ⟨heap, supply⟩ := s
    cases supply with
    | nil => simp at hs
    | cons a rest =>
      have hf := hg.fresh a (by simp)
      refine ⟨a, _, rfl, Heap.le_set hf.unused, fun i hi => ⟨args[i], ⟨some a, ?_, ?_⟩, .inl rfl⟩⟩
      · exact .obj hf.even (o := .struct args) (by simp [Heap.set]) (by simp)
      · simp [onStrict, structFieldStrict, hf.even, Heap.set, hi]

/-- Concrete case: a packed struct of two enum values inside an otherwise empty heap, so the
hypotheses of C01 are met (and the packed branch is taken). -/
def emptySt (n : Nat) : St := ⟨fun _ => none, (List.range n).map (fun i => BitVec.ofNat 64 (8 * i + 8))⟩

theorem emptySt_good (n : Nat) (hn : n < 2^32) : Good (emptySt n) := by
  constructor
  · intro a ha
    simp only [emptySt, List.mem_map, List.mem_range] at ha
    obtain ⟨i, hi, rfl⟩ := ha
    have h2 : (BitVec.ofNat 64 (8 * i + 8)).toNat = 8 * i + 8 := by
      simp [BitVec.toNat_ofNat]; omega
    refine ⟨?_, ?_, ?_, rfl⟩
    · unfold isPacked
      rw [BitVec.getLsbD, h2]
      simp [Nat.testBit_zero]; omega
    · intro h; rw [h] at h2; simp at h2
    · intro h; rw [h] at h2; simp [wrongUnionTag] at h2
  · simp only [emptySt]
    rw [List.Nodup, List.pairwise_map]
    refine List.Pairwise.imp_of_mem ?_ (List.nodup_range (n := n))
    intro a b ha hb hab h
    simp only [List.mem_range] at ha hb
    have := congrArg BitVec.toNat h
    simp only [BitVec.toNat_ofNat] at this
    omega

example : ∃ w s', mkStruct 0 [1#64, 1#64] (emptySt 1) = some (w, s') ∧
    Denotes s'.heap w (.struct [unitData, unitData]) := by
  have hu : Denotes (emptySt 1).heap 1#64 unitData :=
    .packed (d := .struct []) ⟨by decide, by intro i hi; revert hi; revert i; decide, by decide⟩
  obtain ⟨w, s', h, h2, _⟩ := C01_struct_field 0 (emptySt_good 1 (by decide)) (by decide)
    (.cons hu (.cons hu .nil))
  exact ⟨w, s', h, h2⟩

/-- Both representations occur: two units are packed, 40 units are not. -/
example : (∃ w, newStruct 0 [1#64, 1#64] = some (.word w, false)) ∧
    newStruct 0 (List.replicate 40 1#64) = some (.obj (.struct (List.replicate 40 1#64)), false) := by
  constructor
  · exact ⟨0xd#64, by decide +kernel⟩
  · decide +kernel

/-! ### C02 -/

/-- C02. Union construction followed by each of the accessors. -/
theorem C02_union_access {s : St} {tag : Nat} {arg : Word} {d : Data}
    (hg : Good s) (hs : 1 ≤ s.supply.length) (ha : Denotes s.heap arg d) :
    ∃ w s', mkUnion tag arg s = some (w, s') ∧ Denotes s'.heap w (.union tag d) ∧
      (∀ a, UnionTag s'.heap w a ↔ a = .ok tag) ∧
      (∃ r, Denotes s'.heap r d ∧ (∀ a, UnionArg s'.heap w a ↔ a = .ok r) ∧
        ∀ t a, UnionField s'.heap w t a ↔ a = .ok (if t = tag then r else wrongUnionTag)) := by
  obtain ⟨w, s', h1, m⟩ := mkUnion_made (tag := tag) hg hs ha
  obtain ⟨h2, ⟨r, h3, h4, h5⟩, h6⟩ := union_denotes m.denotes
  refine ⟨w, s', h1, m.denotes, fun a => ⟨fun h => h.det h2, fun h => h ▸ h2⟩, r, h5,
    fun a => ⟨fun h => h.det h3, fun h => h ▸ h3⟩, fun t a => ?_⟩
  by_cases ht : t = tag
  · subst ht; simp only [if_true]; exact ⟨fun h => h.det h4, fun h => h ▸ h4⟩
  · simp only [ht, if_false]; exact ⟨fun h => h.det (h6 t ht), fun h => h ▸ h6 t ht⟩

/-- C02 for arguments with no finite meaning. -/
theorem C02_union_access_same {s : St} {tag : Nat} {arg : Word}
    (hg : Good s) (hs : 1 ≤ s.supply.length) (ha : Legal arg) :
    ∃ w s', mkUnion tag arg s = some (w, s') ∧ s.heap.le s'.heap ∧
      UnionTag s'.heap w (.ok tag) ∧
      ∃ r, UnionArg s'.heap w (.ok r) ∧ Same r arg ∧
        ∀ t, UnionField s'.heap w t (.ok (if t = tag then r else wrongUnionTag)) := by
  unfold mkUnion
  rcases newUnion_spec tag arg ha with ⟨w, e, h1, h2, h3⟩ | h1
  · rw [h1]
    obtain ⟨h4, ⟨r, h5, h6, h7⟩, h8⟩ := unionStrict_packed (h := s.heap) h3
    refine ⟨w, s, rfl, Heap.le_refl _, ⟨_, .packed h3.marker, h4⟩, r,
      ⟨_, .packed h3.marker, h5⟩, .inr ⟨_, h7, h2⟩, fun t => ⟨_, .packed h3.marker, ?_⟩⟩
    by_cases ht : t = tag
    · subst ht; simpa [onStrict] using h6
    · simpa [ht, onStrict] using h8 t ht
  · rw [h1]
    obtain ⟨heap, supply⟩ := s
    cases supply with
    | nil => simp at hs
    | cons a rest =>
      have hf := hg.fresh a (by simp)
      have hstr : Strict (heap.set a (.union tag arg)) a (some a) :=
        .obj hf.even (o := .union tag arg) (by simp [Heap.set]) (by simp)
      refine ⟨a, _, rfl, Heap.le_set hf.unused, ⟨_, hstr, ?_⟩, arg, ⟨_, hstr, ?_⟩, .inl rfl,
        fun t => ⟨_, hstr, ?_⟩⟩
      · simp [onStrict, unionTagStrict, hf.even, Heap.set]
      · simp [onStrict, unionArgStrict, hf.even, Heap.set]
      · simp only [onStrict, unionFieldStrict, hf.even, Heap.set]
        by_cases ht : t = tag
        · simp [ht]
        · simp [ht, Ne.symm ht]

example : (∃ w, newUnion 3 1#64 = some (.word w)) ∧ newUnion 61 1#64 = some (.obj (.union 61 1#64)) := by
  constructor
  · exact ⟨0x1f#64, by decide +kernel⟩
  · decide +kernel

/-! ### C03 -/

/-- C03. The same word never represents two different data values, in any heap; and a word that
represents data (packed or not) is never NULL nor the wrong-tag sentinel, given that neither of
those is the address of an object. -/
theorem C03_injective {h : Heap} {w : Word} {d e : Data} (h1 : Denotes h w d)
    (h2 : Denotes h w e) : d = e := h1.unique h2

theorem C03_not_confused {h : Heap} {w : Word} {d : Data} (h1 : Denotes h w d)
    (h0 : h 0#64 = none) (hs : h wrongUnionTag = none) :
    w ≠ 0#64 ∧ w ≠ wrongUnionTag ∧ (isPacked w = true → ∀ a, Fresh h a → w ≠ a) := by
  have key : ∀ x, isPacked x = false → h x = none → w ≠ x := by
    rintro x hx hn rfl
    cases h1 with
    | packed hp => rw [hp.marker] at hx; cases hx
    | struct _ h => rw [h] at hn; cases hn
    | union _ h => rw [h] at hn; cases hn
    | «opaque» _ h => rw [h] at hn; cases hn
    | ref _ h => rw [h] at hn; cases hn
  exact ⟨key _ (by decide) h0, key _ (by decide) hs, fun _ a ha => key a ha.even ha.unused⟩

/-- C03, at the level of the constructors: if two constructor calls return the same packed word,
the data they were given is the same. -/
theorem C03_constructors {s : St} (poison : Word) {as bs : List Word} {ds es : List Data}
    {t : Nat} {b : Word} {e : Data} {w : Word}
    (ha : All2 (Denotes s.heap) as ds) (hb : All2 (Denotes s.heap) bs es) (hd : Denotes s.heap b e)
    (h1 : newStruct poison as = some (.word w, false)) :
    (newStruct poison bs = some (.word w, false) → ds = es) ∧ newUnion t b ≠ some (.word w) := by
  have hg : Good ⟨s.heap, []⟩ := ⟨by simp, by simp⟩
  have leg : ∀ {xs : List Word} {ys : List Data}, All2 (Denotes s.heap) xs ys → ∀ x ∈ xs, Legal x :=
    fun h x hx => by obtain ⟨d, _, hd⟩ := h.mem_left hx; exact hd.legal
  have den : ∀ {xs : List Word} {ys : List Data}, All2 (Denotes s.heap) xs ys →
      newStruct poison xs = some (.word w, false) → Denotes s.heap w (.struct ys) := by
    intro xs ys hxy hn
    rcases newStruct_spec poison xs (leg hxy) with ⟨w', ps, h3, h4, h5⟩ | ⟨ub, h3⟩
    · rw [h3] at hn; cases hn
      have := Denotes.packed (h := s.heap) h5
      have hps : PData.toDatas ps = ys := by
        rw [toDatas_eq_map]
        have hlen := h4.length_eq
        have hlen2 := hxy.length_eq
        apply List.ext_getElem (by simp; omega)
        intro i h6 h7
        simp only [List.getElem_map]
        exact (Denotes.packed (h := s.heap) (h4.get i (by omega) (by simpa using h6))).unique
          (hxy.get i (by omega) h7)
      simpa [PData.toData, hps] using this
    · rw [h3] at hn; cases hn
  have hw := den ha h1
  refine ⟨fun h2 => ?_, fun h2 => ?_⟩
  · have := hw.unique (den hb h2); simpa using this
  · rcases newUnion_spec t b hd.legal with ⟨w', e', h3, h4, h5⟩ | h3
    · rw [h3] at h2; cases h2
      have := hw.unique (.packed h5)
      simp [PData.toData] at this
    · rw [h3] at h2; cases h2

/-! #### C03 as a refinement: any program over the value API computes on words what it would
compute on plain data. -/

/-- A client program over a growing list of registers (newest last). -/
inductive Op where
  | struct (args : List Nat)
  | union (tag : Nat) (arg : Nat)
  | enum (tag : Nat)
  | native (id : Nat)
  /-- a new reference assigned to a register -/
  | ref (r : Nat)
  | list (args : List Nat)
  | literal (letters : List Nat)
  | field (r i : Nat)
  | tag (r : Nat)
  | arg (r : Nat)
  /-- `FbleUnionValueField(r, t)`, observed: 1 and the argument, or 0 for the sentinel -/
  | ufield (r t : Nat)

/-- Abstract state: registers and the numbers observed. -/
structure AState where
  regs : List Data
  outs : List Nat

/-- What the operations mean on plain data. `none`: the program is ill typed. -/
def aStep (s : AState) : Op → Option AState
  | .struct args => do
      let ds ← args.mapM (s.regs[·]?)
      pure { s with regs := s.regs ++ [.struct ds] }
  | .union t a => do
      let d ← s.regs[a]?
      pure { s with regs := s.regs ++ [.union t d] }
  | .enum t => some { s with regs := s.regs ++ [enumData t] }
  | .native id => some { s with regs := s.regs ++ [.opaque id] }
  | .ref r => do
      let d ← s.regs[r]?
      pure { s with regs := s.regs ++ [d] }
  | .list args => do
      let ds ← args.mapM (s.regs[·]?)
      pure { s with regs := s.regs ++ [listData ds] }
  | .literal ls => some { s with regs := s.regs ++ [listData (ls.map enumData)] }
  | .field r i =>
      match s.regs[r]? with
      | some (.struct ds) => match ds[i]? with
        | some d => some { s with regs := s.regs ++ [d] }
        | none => none
      | _ => none
  | .tag r =>
      match s.regs[r]? with
      | some (.union t _) => some { s with outs := s.outs ++ [t] }
      | _ => none
  | .arg r =>
      match s.regs[r]? with
      | some (.union _ d) => some { s with regs := s.regs ++ [d] }
      | _ => none
  | .ufield r t =>
      match s.regs[r]? with
      | some (.union t' d) =>
        if t = t' then some { regs := s.regs ++ [d], outs := s.outs ++ [1] }
        else some { s with outs := s.outs ++ [0] }
      | _ => none

/-- Concrete state. -/
structure CState where
  regs : List Word
  outs : List Nat
  st : St

/-- What the C API does. -/
inductive CStep (poison : Word) : CState → Op → CState → Prop where
  | struct {c args ws w st} : args.mapM (c.regs[·]?) = some ws → mkStruct poison ws c.st = some (w, st) →
      CStep poison c (.struct args) { c with regs := c.regs ++ [w], st := st }
  | union {c t a v w st} : c.regs[a]? = some v → mkUnion t v c.st = some (w, st) →
      CStep poison c (.union t a) { c with regs := c.regs ++ [w], st := st }
  | enum {c t w st} : mkEnum poison t c.st = some (w, st) →
      CStep poison c (.enum t) { c with regs := c.regs ++ [w], st := st }
  | native {c id w st} : alloc (.opaque id) c.st = some (w, st) →
      CStep poison c (.native id) { c with regs := c.regs ++ [w], st := st }
  | ref {c r v w st} : c.regs[r]? = some v → alloc (.ref (some v)) c.st = some (w, st) →
      CStep poison c (.ref r) { c with regs := c.regs ++ [w], st := st }
  | list {c args ws w st} : args.mapM (c.regs[·]?) = some ws → mkList poison ws c.st = some (w, st) →
      CStep poison c (.list args) { c with regs := c.regs ++ [w], st := st }
  | literal {c ls w st} : mkLiteral poison ls c.st = some (w, st) →
      CStep poison c (.literal ls) { c with regs := c.regs ++ [w], st := st }
  | field {c r i v w} : c.regs[r]? = some v → StructField c.st.heap v i (.ok w) →
      CStep poison c (.field r i) { c with regs := c.regs ++ [w] }
  | tag {c r v t} : c.regs[r]? = some v → UnionTag c.st.heap v (.ok t) →
      CStep poison c (.tag r) { c with outs := c.outs ++ [t] }
  | arg {c r v w} : c.regs[r]? = some v → UnionArg c.st.heap v (.ok w) →
      CStep poison c (.arg r) { c with regs := c.regs ++ [w] }
  | ufieldOk {c r t v w} : c.regs[r]? = some v → UnionField c.st.heap v t (.ok w) → w ≠ wrongUnionTag →
      CStep poison c (.ufield r t) { c with regs := c.regs ++ [w], outs := c.outs ++ [1] }
  | ufieldWrong {c r t v} : c.regs[r]? = some v → UnionField c.st.heap v t (.ok wrongUnionTag) →
      CStep poison c (.ufield r t) { c with outs := c.outs ++ [0] }

/-- Addresses an operation may need. -/
def Op.cost : Op → Nat
  | .list args => 2 * args.length + 2
  | .literal ls => 3 * ls.length + 2
  | _ => 2

inductive CRun (poison : Word) : CState → List Op → CState → Prop where
  | nil {c} : CRun poison c [] c
  | cons {c c' c'' op ops} : CStep poison c op c' → CRun poison c' ops c'' → CRun poison c (op :: ops) c''

def aRun (s : AState) : List Op → Option AState
  | [] => some s
  | op :: ops => (aStep s op).bind (aRun · ops)

def totalCost (ops : List Op) : Nat := (ops.map Op.cost).foldr (· + ·) 0

/-- Concrete and abstract states agree: same observations, and every register means its data. -/
structure Rel (c : CState) (a : AState) : Prop where
  outs : c.outs = a.outs
  regs : All2 (Denotes c.st.heap) c.regs a.regs
  good : Good c.st
  noNull : c.st.heap wrongUnionTag = none

theorem mapM_get {c : CState} {a : AState} (h : Rel c a) : ∀ (args : List Nat) (ds : List Data),
    args.mapM (a.regs[·]?) = some ds →
    ∃ ws, args.mapM (c.regs[·]?) = some ws ∧ All2 (Denotes c.st.heap) ws ds := by
  intro args
  induction args with
  | nil => intro ds hd; simp at hd; subst hd; exact ⟨[], by simp, .nil⟩
  | cons x xs ih =>
    intro ds hd
    simp only [List.mapM_cons, Option.bind_eq_bind, Option.bind_eq_some_iff] at hd
    obtain ⟨d, hd1, ds', hd2, hd3⟩ := hd
    simp at hd3; subst hd3
    obtain ⟨ws, h1, h2⟩ := ih ds' hd2
    have hl := h.regs.length_eq
    obtain ⟨hx, rfl⟩ := List.getElem?_eq_some_iff.mp hd1
    refine ⟨c.regs[x] :: ws, ?_, .cons (h.regs.get x (by omega) hx) h2⟩
    simp [List.mapM_cons, List.getElem?_eq_getElem (show x < c.regs.length by omega), h1]

theorem mapM_length {α : Type} {f : Nat → Option α} : ∀ {l : List Nat} {r : List α},
    l.mapM f = some r → r.length = l.length
  | [], r, h => by simp at h; subst h; rfl
  | x :: xs, r, h => by
    simp only [List.mapM_cons, Option.bind_eq_bind, Option.bind_eq_some_iff] at h
    obtain ⟨_, _, ys, h2, h3⟩ := h
    simp at h3; subst h3; simp [mapM_length h2]

theorem Rel.reg {c : CState} {a : AState} (h : Rel c a) {r : Nat} {d : Data}
    (hd : a.regs[r]? = some d) : ∃ v, c.regs[r]? = some v ∧ Denotes c.st.heap v d := by
  have hl := h.regs.length_eq
  obtain ⟨hx, rfl⟩ := List.getElem?_eq_some_iff.mp hd
  exact ⟨c.regs[r], List.getElem?_eq_getElem (by omega), h.regs.get r (by omega) hx⟩

/-- Constructors do not store at the sentinel address. -/
theorem alloc_sentinel {o : Obj} {s s' : St} {w : Word} (hg : Good s)
    (hn : s.heap wrongUnionTag = none) (h : alloc o s = some (w, s')) :
    s'.heap wrongUnionTag = none := by
  unfold alloc at h
  obtain ⟨heap, supply⟩ := s
  cases supply with
  | nil => simp at h
  | cons a rest =>
    simp at h
    obtain ⟨rfl, rfl⟩ := h
    have := (hg.fresh a (by simp)).notSentinel
    simp [Heap.set, Ne.symm this]; exact hn

/-- The two facts about a constructor run that the refinement needs. -/
def Keeps (s s' : St) : Prop := Good s → s.heap wrongUnionTag = none → s'.heap wrongUnionTag = none

theorem emit_keeps {b : Built} {s s' : St} {w : Word} (h : emit b s = some (w, s')) : Keeps s s' := by
  intro hg hn
  cases b with
  | word => simp [emit] at h; obtain ⟨_, rfl⟩ := h; exact hn
  | obj o => exact alloc_sentinel hg hn h

theorem alloc_good {o : Obj} {s s' : St} {w : Word} (hg : Good s) (h : alloc o s = some (w, s')) : Good s' := by
  obtain ⟨heap, supply⟩ := s
  cases supply with
  | nil => simp [alloc] at h
  | cons a rest =>
    simp [alloc] at h
    obtain ⟨rfl, rfl⟩ := h
    have hnd := hg.nodup
    simp only [List.nodup_cons] at hnd
    refine ⟨fun b hb => ?_, hnd.2⟩
    have hb' := hg.fresh b (by simp at hb ⊢; exact .inr hb)
    have hne : b ≠ a := by rintro rfl; exact hnd.1 hb
    exact ⟨hb'.even, hb'.nonnull, hb'.notSentinel, by simp [Heap.set, hne]; exact hb'.unused⟩

theorem emit_good {b : Built} {s s' : St} {w : Word} (hg : Good s) (h : emit b s = some (w, s')) : Good s' := by
  cases b with
  | word => simp [emit] at h; obtain ⟨_, rfl⟩ := h; exact hg
  | obj o => exact alloc_good hg h

theorem mkStruct_keeps {p : Word} {as : List Word} {s s' : St} {w : Word}
    (h : mkStruct p as s = some (w, s')) : Keeps s s' ∧ (Good s → Good s') := by
  unfold mkStruct at h
  cases hn : newStruct p as with
  | none => rw [hn] at h; cases h
  | some b => rw [hn] at h; exact ⟨emit_keeps h, fun hg => emit_good hg h⟩

theorem mkUnion_keeps {t : Nat} {a : Word} {s s' : St} {w : Word}
    (h : mkUnion t a s = some (w, s')) : Keeps s s' ∧ (Good s → Good s') := by
  unfold mkUnion at h
  cases hn : newUnion t a with
  | none => rw [hn] at h; cases h
  | some b => rw [hn] at h; exact ⟨emit_keeps h, fun hg => emit_good hg h⟩

theorem Keeps.trans {a b c : St} (h1 : Keeps a b ∧ (Good a → Good b)) (h2 : Keeps b c ∧ (Good b → Good c)) :
    Keeps a c ∧ (Good a → Good c) :=
  ⟨fun hg hn => h2.1 (h1.2 hg) (h1.1 hg hn), fun hg => h2.2 (h1.2 hg)⟩

theorem mkEnum_keeps {p : Word} {t : Nat} {s s' : St} {w : Word}
    (h : mkEnum p t s = some (w, s')) : Keeps s s' ∧ (Good s → Good s') := by
  unfold mkEnum at h
  cases hn : mkStruct p [] s with
  | none => rw [hn] at h; cases h
  | some b => rw [hn] at h; exact Keeps.trans (mkStruct_keeps hn) (mkUnion_keeps h)

theorem listLoop_keeps {p : Word} : ∀ {as : List Word} {t : Word} {s s' : St} {w : Word},
    listLoop p as t s = some (w, s') → Keeps s s' ∧ (Good s → Good s')
  | [], t, s, s', w, h => by simp [listLoop] at h; obtain ⟨_, rfl⟩ := h; exact ⟨fun _ h => h, id⟩
  | a :: as, t, s, s', w, h => by
    unfold listLoop at h
    cases h1 : mkStruct p [a, t] s with
    | none => rw [h1] at h; cases h
    | some b =>
      rw [h1] at h; dsimp only at h
      cases h2 : mkUnion 0 b.1 b.2 with
      | none => rw [h2] at h; cases h
      | some c =>
        rw [h2] at h
        exact Keeps.trans (mkStruct_keeps h1) (Keeps.trans (mkUnion_keeps h2) (listLoop_keeps h))

theorem mkList_keeps {p : Word} {as : List Word} {s s' : St} {w : Word}
    (h : mkList p as s = some (w, s')) : Keeps s s' ∧ (Good s → Good s') := by
  unfold mkList at h
  cases h1 : mkStruct p [] s with
  | none => rw [h1] at h; cases h
  | some b =>
    rw [h1] at h; dsimp only at h
    cases h2 : mkUnion 1 b.1 b.2 with
    | none => rw [h2] at h; cases h
    | some c =>
      rw [h2] at h
      exact Keeps.trans (mkStruct_keeps h1) (Keeps.trans (mkUnion_keeps h2) (listLoop_keeps h))

theorem literalLoop_keeps {p u : Word} : ∀ {as : List Nat} {t : Word} {s s' : St} {w : Word},
    literalLoop p u as t s = some (w, s') → Keeps s s' ∧ (Good s → Good s')
  | [], t, s, s', w, h => by simp [literalLoop] at h; obtain ⟨_, rfl⟩ := h; exact ⟨fun _ h => h, id⟩
  | a :: as, t, s, s', w, h => by
    unfold literalLoop at h
    cases h0 : mkUnion a u s with
    | none => rw [h0] at h; cases h
    | some z =>
    rw [h0] at h; dsimp only at h
    cases h1 : mkStruct p [z.1, t] z.2 with
    | none => rw [h1] at h; cases h
    | some b =>
      rw [h1] at h; dsimp only at h
      cases h2 : mkUnion 0 b.1 b.2 with
      | none => rw [h2] at h; cases h
      | some c =>
        rw [h2] at h
        exact Keeps.trans (mkUnion_keeps h0)
          (Keeps.trans (mkStruct_keeps h1) (Keeps.trans (mkUnion_keeps h2) (literalLoop_keeps h)))

theorem mkLiteral_keeps {p : Word} {as : List Nat} {s s' : St} {w : Word}
    (h : mkLiteral p as s = some (w, s')) : Keeps s s' ∧ (Good s → Good s') := by
  unfold mkLiteral at h
  cases h1 : mkStruct p [] s with
  | none => rw [h1] at h; cases h
  | some b =>
    rw [h1] at h; dsimp only at h
    cases h2 : mkUnion 1 b.1 b.2 with
    | none => rw [h2] at h; cases h
    | some c =>
      rw [h2] at h
      exact Keeps.trans (mkStruct_keeps h1) (Keeps.trans (mkUnion_keeps h2) (literalLoop_keeps h))

theorem Rel.push {c : CState} {a : AState} (h : Rel c a) {w : Word} {d : Data} {s' : St} {n : Nat}
    (hk : Keeps c.st s' ∧ (Good c.st → Good s')) (m : Made c.st n w s' d) :
    Rel { c with regs := c.regs ++ [w], st := s' } { a with regs := a.regs ++ [d] } :=
  ⟨h.outs, All2.append (h.regs.mono (fun _ _ x => x.mono m.le)) (.cons m.denotes .nil), m.good,
    hk.1 h.good h.noNull⟩

/-- One step: every well typed operation succeeds on the C side if memory is available, and
whatever it does agrees with the abstract step. -/
theorem C03_step (poison : Word) {c : CState} {a a' : AState} {op : Op} (h : Rel c a)
    (ha : aStep a op = some a') (hc : op.cost ≤ c.st.supply.length) :
    (∃ c', CStep poison c op c') ∧
    ∀ c', CStep poison c op c' → Rel c' a' ∧ c.st.supply.length ≤ c'.st.supply.length + op.cost := by
  cases op with
  | struct args =>
    simp only [aStep, Option.bind_eq_bind, Option.bind_eq_some_iff, Option.pure_def, Option.some.injEq] at ha
    obtain ⟨ds, h1, rfl⟩ := ha
    obtain ⟨ws, h2, h3⟩ := mapM_get h args ds h1
    obtain ⟨w, s', h4, m⟩ := mkStruct_made poison h.good (by simp [Op.cost] at hc; omega) h3
    refine ⟨⟨_, .struct h2 h4⟩, fun c' hs => ?_⟩
    cases hs with
    | struct h2' h4' =>
      rw [h2] at h2'; cases h2'; rw [h4] at h4'; cases h4'
      exact ⟨h.push (mkStruct_keeps h4) m, by have := m.used; simp [Op.cost]; omega⟩
  | union t r =>
    simp only [aStep, Option.bind_eq_bind, Option.bind_eq_some_iff, Option.pure_def, Option.some.injEq] at ha
    obtain ⟨d, h1, rfl⟩ := ha
    obtain ⟨v, h2, h3⟩ := h.reg h1
    obtain ⟨w, s', h4, m⟩ := mkUnion_made (tag := t) h.good (by simp [Op.cost] at hc; omega) h3
    refine ⟨⟨_, .union h2 h4⟩, fun c' hs => ?_⟩
    cases hs with
    | union h2' h4' =>
      rw [h2] at h2'; cases h2'; rw [h4] at h4'; cases h4'
      exact ⟨h.push (mkUnion_keeps h4) m, by have := m.used; simp [Op.cost]; omega⟩
  | enum t =>
    simp only [aStep, Option.some.injEq] at ha
    subst ha
    obtain ⟨w, s', h4, m⟩ := mkEnum_made poison t h.good (by simp [Op.cost] at hc; omega)
    refine ⟨⟨_, .enum h4⟩, fun c' hs => ?_⟩
    cases hs with
    | enum h4' =>
      rw [h4] at h4'; cases h4'
      exact ⟨h.push (mkEnum_keeps h4) m, by have := m.used; simp [Op.cost]; omega⟩
  | native id =>
    simp only [aStep, Option.some.injEq] at ha
    subst ha
    obtain ⟨w, s', h4, m⟩ := alloc_made (s := c.st) (o := .opaque id) (d := .opaque id) h.good
      (by simp [Op.cost] at hc; omega) (fun h' a _ hp ho => .opaque hp ho)
    refine ⟨⟨_, .native h4⟩, fun c' hs => ?_⟩
    cases hs with
    | native h4' =>
      rw [h4] at h4'; cases h4'
      exact ⟨h.push ⟨fun hg hn => alloc_sentinel hg hn h4, fun hg => alloc_good hg h4⟩ m,
        by have := m.used; simp [Op.cost]; omega⟩
  | ref r =>
    simp only [aStep, Option.bind_eq_bind, Option.bind_eq_some_iff, Option.pure_def, Option.some.injEq] at ha
    obtain ⟨d, h1, rfl⟩ := ha
    obtain ⟨v, h2, h3⟩ := h.reg h1
    obtain ⟨w, s', h4, m⟩ := alloc_made (s := c.st) (o := .ref (some v)) (d := d) h.good
      (by simp [Op.cost] at hc; omega) (fun h' a hle hp ho => .ref hp ho (h3.mono hle))
    refine ⟨⟨_, .ref h2 h4⟩, fun c' hs => ?_⟩
    cases hs with
    | ref h2' h4' =>
      rw [h2] at h2'; cases h2'; rw [h4] at h4'; cases h4'
      exact ⟨h.push ⟨fun hg hn => alloc_sentinel hg hn h4, fun hg => alloc_good hg h4⟩ m,
        by have := m.used; simp [Op.cost]; omega⟩
  | list args =>
    simp only [aStep, Option.bind_eq_bind, Option.bind_eq_some_iff, Option.pure_def, Option.some.injEq] at ha
    obtain ⟨ds, h1, rfl⟩ := ha
    obtain ⟨ws, h2, h3⟩ := mapM_get h args ds h1
    have hl := mapM_length h2
    obtain ⟨w, s', h4, m⟩ := mkList_made poison h.good (by simp [Op.cost] at hc; omega) h3
    refine ⟨⟨_, .list h2 h4⟩, fun c' hs => ?_⟩
    cases hs with
    | list h2' h4' =>
      rw [h2] at h2'; cases h2'; rw [h4] at h4'; cases h4'
      exact ⟨h.push (mkList_keeps h4) m, by have := m.used; simp [Op.cost]; omega⟩
  | literal ls =>
    simp only [aStep, Option.some.injEq] at ha
    subst ha
    obtain ⟨w, s', h4, m⟩ := mkLiteral_made poison ls h.good (by simp [Op.cost] at hc; omega)
    refine ⟨⟨_, .literal h4⟩, fun c' hs => ?_⟩
    cases hs with
    | literal h4' =>
      rw [h4] at h4'; cases h4'
      exact ⟨h.push (mkLiteral_keeps h4) m, by have := m.used; simp [Op.cost]; omega⟩
  | field r i =>
    simp only [aStep] at ha
    split at ha
    · rename_i ds h1
      split at ha
      · rename_i d h5
        simp only [Option.some.injEq] at ha; subst ha
        obtain ⟨v, h2, h3⟩ := h.reg h1
        obtain ⟨hi, rfl⟩ := List.getElem?_eq_some_iff.mp h5
        obtain ⟨w, h6, h7⟩ := structField_denotes h3 hi
        refine ⟨⟨_, .field h2 h6⟩, fun c' hs => ?_⟩
        cases hs with
        | field h2' h6' =>
          rw [h2] at h2'; cases h2'; have := h6.det h6'; cases this
          exact ⟨⟨h.outs, All2.append h.regs (.cons h7 .nil), h.good, h.noNull⟩, by simp⟩
      · cases ha
    · cases ha
  | tag r =>
    simp only [aStep] at ha
    split at ha
    · rename_i t d h1
      simp only [Option.some.injEq] at ha; subst ha
      obtain ⟨v, h2, h3⟩ := h.reg h1
      obtain ⟨h6, _⟩ := union_denotes h3
      refine ⟨⟨_, .tag h2 h6⟩, fun c' hs => ?_⟩
      cases hs with
      | tag h2' h6' =>
        rw [h2] at h2'; cases h2'; have := h6.det h6'; cases this
        exact ⟨⟨by simp [h.outs], h.regs, h.good, h.noNull⟩, by simp⟩
    · cases ha
  | arg r =>
    simp only [aStep] at ha
    split at ha
    · rename_i t d h1
      simp only [Option.some.injEq] at ha; subst ha
      obtain ⟨v, h2, h3⟩ := h.reg h1
      obtain ⟨_, ⟨w, h6, _, h7⟩, _⟩ := union_denotes h3
      refine ⟨⟨_, .arg h2 h6⟩, fun c' hs => ?_⟩
      cases hs with
      | arg h2' h6' =>
        rw [h2] at h2'; cases h2'; have := h6.det h6'; cases this
        exact ⟨⟨h.outs, All2.append h.regs (.cons h7 .nil), h.good, h.noNull⟩, by simp⟩
    · cases ha
  | ufield r t =>
    simp only [aStep] at ha
    split at ha
    · rename_i t' d h1
      obtain ⟨v, h2, h3⟩ := h.reg h1
      obtain ⟨_, ⟨w, _, h6, h7⟩, h8⟩ := union_denotes h3
      have hws : w ≠ wrongUnionTag := by
        rintro rfl
        cases h7 with
        | packed hp => have := hp.marker; revert this; decide
        | struct _ h' => rw [h.noNull] at h'; cases h'
        | union _ h' => rw [h.noNull] at h'; cases h'
        | «opaque» _ h' => rw [h.noNull] at h'; cases h'
        | ref _ h' => rw [h.noNull] at h'; cases h'
      split at ha
      · rename_i ht
        subst ht
        simp only [Option.some.injEq] at ha; subst ha
        refine ⟨⟨_, .ufieldOk h2 h6 hws⟩, fun c' hs => ?_⟩
        cases hs with
        | ufieldOk h2' h6' _ =>
          rw [h2] at h2'; cases h2'; have := h6.det h6'; cases this
          exact ⟨⟨by simp [h.outs], All2.append h.regs (.cons h7 .nil), h.good, h.noNull⟩, by simp⟩
        | ufieldWrong h2' h6' =>
          rw [h2] at h2'; cases h2'; have := h6.det h6'; cases this; exact absurd rfl hws
      · rename_i ht
        simp only [Option.some.injEq] at ha; subst ha
        refine ⟨⟨_, .ufieldWrong h2 (h8 t ht)⟩, fun c' hs => ?_⟩
        cases hs with
        | ufieldOk h2' h6' hne =>
          rw [h2] at h2'; cases h2'; have := (h8 t ht).det h6'; cases this; exact absurd rfl hne
        | ufieldWrong h2' h6' => exact ⟨⟨by simp [h.outs], h.regs, h.good, h.noNull⟩, by simp⟩
    · cases ha

/-- C03 (refinement). Any well typed program of API calls, run on words with enough memory,
succeeds; and every run makes the observations of, and ends with registers denoting the data
of, the abstract run. -/
theorem C03_refinement (poison : Word) : ∀ (ops : List Op) {c : CState} {a a' : AState}, Rel c a →
    aRun a ops = some a' → totalCost ops ≤ c.st.supply.length →
    (∃ c', CRun poison c ops c') ∧ ∀ c', CRun poison c ops c' →
      c'.outs = a'.outs ∧ All2 (Denotes c'.st.heap) c'.regs a'.regs
  | [], c, a, a', h, ha, _ => by
    simp [aRun] at ha; subst ha
    exact ⟨⟨c, .nil⟩, fun c' hr => by cases hr; exact ⟨h.outs, h.regs⟩⟩
  | op :: ops, c, a, a', h, ha, hc => by
    simp only [aRun, Option.bind_eq_some_iff] at ha
    obtain ⟨a1, h1, h2⟩ := ha
    simp only [totalCost, List.map_cons, List.foldr_cons] at hc
    obtain ⟨⟨c1, hs⟩, hall⟩ := C03_step poison h h1 (by omega)
    constructor
    · obtain ⟨hr, hu⟩ := hall c1 hs
      obtain ⟨⟨c2, hrun⟩, _⟩ := C03_refinement poison ops hr h2 (by simp only [totalCost]; omega)
      exact ⟨c2, .cons hs hrun⟩
    · intro c' hrun
      cases hrun with
      | cons hs' hrun' =>
        obtain ⟨hr, hu⟩ := hall _ hs'
        exact (C03_refinement poison ops hr h2 (by simp only [totalCost]; omega)).2 _ hrun'

/-- The hypotheses are met from an empty heap with enough memory; the program below builds a
struct of an enum and a big union, reads it back and observes tags 3 and 70. -/
def demo : List Op :=
  [.enum 3, .enum 70, .struct [0, 1], .ref 2, .field 3 0, .tag 4, .field 3 1, .tag 5, .ufield 5 3]

example : ∃ a', aRun ⟨[], []⟩ demo = some a' ∧ a'.outs = [3, 70, 0] := ⟨_, rfl, rfl⟩
example (poison : Word) : ∃ c', CRun poison ⟨[], [], emptySt 100⟩ demo c' ∧ c'.outs = [3, 70, 0] := by
  have hr : Rel ⟨[], [], emptySt 100⟩ ⟨[], []⟩ := ⟨rfl, .nil, emptySt_good 100 (by decide), rfl⟩
  obtain ⟨⟨c', h⟩, h2⟩ := C03_refinement poison demo hr rfl (by decide)
  exact ⟨c', h, (h2 c' h).1⟩

/-! ### C04 -/

/-- C04 is false of the code: the enum value with tag 60 is packed in one word (its code has 64
bits), and constructing a struct from it evaluates `1 << 64`. -/
theorem C04_violated : ∃ w, newUnion 60 genericTypeValue = some (.word w) ∧
    packedLen depth (w.sshiftRight 1) = some 64 ∧
    ∀ poison, ∃ b, newStruct poison [w] = some (b, true) := by
  refine ⟨(BitVec.ofNat 64 (2^62 - 1)), by decide +kernel, by decide +kernel, fun poison => ?_⟩
  have h : packedLen depth ((BitVec.ofNat 64 (2^62 - 1)).sshiftRight 1) = some 64 := by decide +kernel
  refine ⟨.obj (.struct [BitVec.ofNat 64 (2^62 - 1)]), ?_⟩
  have hp : isPacked (BitVec.ofNat 64 (2^62 - 1)) = true := by decide
  simp only [newStruct, List.reverse_cons, List.reverse_nil, List.nil_append, packLoop, hp, if_true, h]
  simp

theorem packLoop_ub (poison : Word) : ∀ (as : List Word) (s s' : PackState),
    (∀ a ∈ as, Legal a) → packLoop poison as s = some s' →
    (s'.ub = true ↔ s.ub = true ∨ ∃ pre a post d, as = pre ++ a :: post ∧ (∀ b ∈ pre, isPacked b = true) ∧
      Packs a d ∧ 63 ≤ d.enc.length)
  | [], s, s', _, h => by simp [packLoop] at h; subst h; simp
  | a :: as, s, s', hleg, h => by
    unfold packLoop at h
    cases hp : isPacked a with
    | false =>
      rw [if_neg (by simp [hp])] at h
      cases h
      simp only
      constructor
      · exact .inl
      · rintro (h | ⟨pre, b, post, d, h1, h2, h3, _⟩)
        · exact h
        · cases pre with
          | nil => simp at h1; obtain ⟨rfl, rfl⟩ := h1; rw [h3.marker] at hp; cases hp
          | cons x xs => simp at h1; obtain ⟨rfl, rfl⟩ := h1; rw [h2 a (by simp)] at hp; cases hp
    | true =>
      obtain ⟨d, hd⟩ := hleg a (by simp) hp
      have hlen := packedLen_depth hd.small hd.bits
      rw [if_pos hp] at h
      simp only [hlen] at h
      rw [packLoop_ub poison as _ s' (fun x hx => hleg x (by simp [hx])) h]
      simp only [Bool.or_eq_true, decide_eq_true_eq]
      constructor
      · rintro ((h | h) | ⟨pre, b, post, e, rfl, h2, h3, h4⟩)
        · exact .inl h
        · exact .inr ⟨[], a, as, d, rfl, by simp, hd, h⟩
        · exact .inr ⟨a :: pre, b, post, e, rfl, by simp [hp]; exact h2, h3, h4⟩
      · rintro (h | ⟨pre, b, post, e, h1, h2, h3, h4⟩)
        · exact .inl (.inl h)
        · cases pre with
          | nil =>
            simp at h1; obtain ⟨rfl, rfl⟩ := h1
            rw [packs_unique hd h3]; exact .inl (.inr h4)
          | cons x xs =>
            simp at h1; obtain ⟨rfl, rfl⟩ := h1
            exact .inr ⟨xs, b, post, e, rfl, fun y hy => h2 y (by simp [hy]), h3, h4⟩

/-- C04. Exactly when undefined behaviour is evaluated: some packed argument
has a code of 63 or 64 bits and all arguments after it are packed (the loop runs from the last
argument to the first and stops at the first unpacked one). Even then the returned value does
not depend on the undefined result. -/
theorem C04_shifts (poison : Word) (args : List Word) (hleg : ∀ a ∈ args, Legal a) :
    ∃ b ub, newStruct poison args = some (b, ub) ∧
      (∀ poison', newStruct poison' args = some (b, ub)) ∧
      (ub = true ↔ ∃ pre a post d, args = pre ++ a :: post ∧ Packs a d ∧ 63 ≤ d.enc.length ∧
        ∀ x ∈ post, isPacked x = true) := by
  have main : ∀ p, ∃ b ub, newStruct p args = some (b, ub) ∧
      (ub = true ↔ ∃ pre a post d, args = pre ++ a :: post ∧ Packs a d ∧ 63 ≤ d.enc.length ∧
        ∀ x ∈ post, isPacked x = true) := by
    intro p
    have hleg' : ∀ a ∈ args.reverse, Legal a := fun a ha => hleg a (by simpa using ha)
    obtain ⟨s, hs, _⟩ := packLoop_spec p args.reverse ⟨0#64, 0, false⟩ [] hleg'
      (by intro _ i hi; simp [PData.encs] at hi) (by simp [PData.encs]) (by simp)
    have hub := packLoop_ub p args.reverse _ s hleg' hs
    have hub' : (s.ub = true ↔ ∃ pre a post d, args = pre ++ a :: post ∧ Packs a d ∧ 63 ≤ d.enc.length ∧
        ∀ x ∈ post, isPacked x = true) := by
      rw [hub]
      constructor
      · rintro (h | ⟨pre, a, post, d, h1, h2, h3, h4⟩)
        · simp at h
        · refine ⟨post.reverse, a, pre.reverse, d, ?_, h3, h4, fun x hx => h2 x (by simpa using hx)⟩
          have := congrArg List.reverse h1
          simpa using this
      · rintro ⟨pre, a, post, d, h1, h3, h4, h2⟩
        refine .inr ⟨post.reverse, a, pre.reverse, d, ?_, fun x hx => h2 x (by simpa using hx), h3, h4⟩
        rw [h1]; simp
    unfold newStruct
    rw [hs]
    by_cases hfit : s.numBits + args.length + 1 < 64
    · exact ⟨_, _, if_pos hfit, hub'⟩
    · exact ⟨_, _, if_neg hfit, hub'⟩
  obtain ⟨b, ub, h1, h2⟩ := main poison
  refine ⟨b, ub, h1, fun p => ?_, h2⟩
  obtain ⟨b', ub', h1', h2'⟩ := main p
  have hube : ub = ub' := by
    rw [Bool.eq_iff_iff, h2, h2']
  subst hube
  rw [h1']
  -- the built value is the same for every poison
  rcases newStruct_spec poison args hleg with ⟨w, es, h3, h4, h5⟩ | ⟨ub1, h3⟩
  · rcases newStruct_spec p args hleg with ⟨w', es', h3', h4', h5'⟩ | ⟨ub2, h3'⟩
    · -- no undefined behaviour: data never poisoned
      rw [h3] at h1; cases h1
      rw [h3'] at h1'; cases h1'
      rw [packStruct_poison_irrel poison p args h3] at h3'
      cases h3'; rfl
    · exfalso
      rw [packStruct_poison_irrel poison p args h3] at h3'
      cases h3'
  · rcases newStruct_spec p args hleg with ⟨w', es', h3', h4', h5'⟩ | ⟨ub2, h3'⟩
    · exfalso
      rw [packStruct_poison_irrel p poison args h3'] at h3
      cases h3
    · rw [h3] at h1; cases h1
      rw [h3'] at h1'; cases h1'; rfl

example : Legal genericTypeValue ∧ newStruct 0 [genericTypeValue] = some (.word 0x5#64, false) := by
  refine ⟨fun _ => ⟨.struct [], by decide, by intro i hi; revert hi; revert i; decide, by decide⟩,
    by decide +kernel⟩

/-! ### C05 -/

/-- Walking a list value with the accessors, as a client would: `Walk h w ws` says that from `w`
one reads the elements `ws` in order and then reaches the empty list. -/
inductive Walk (h : Heap) : Word → List Word → Prop where
  | nil {w} : UnionTag h w (.ok 1) → Walk h w []
  | cons {w c x xs t} : UnionTag h w (.ok 0) → UnionArg h w (.ok c) →
      StructField h c 0 (.ok x) → StructField h c 1 (.ok t) → Walk h t xs → Walk h w (x :: xs)

theorem Walk.det {h : Heap} {w : Word} {xs ys : List Word} (h1 : Walk h w xs) (h2 : Walk h w ys) :
    xs = ys := by
  induction h1 generalizing ys with
  | nil t =>
    cases h2 with
    | nil => rfl
    | cons t' => have := t.det t'; cases this
  | cons t a f0 f1 _ ih =>
    cases h2 with
    | nil t' => have := t.det t'; cases this
    | cons t' a' f0' f1' r =>
      have := a.det a'; cases this
      have := f0.det f0'; cases this
      have := f1.det f1'; cases this
      rw [ih r]

theorem walk_of_denotes {h : Heap} : ∀ (ds : List Data) (w : Word), Denotes h w (listData ds) →
    ∃ ws, Walk h w ws ∧ All2 (Denotes h) ws ds
  | [], w, hd => ⟨[], .nil (union_denotes hd).1, .nil⟩
  | d :: ds, w, hd => by
    obtain ⟨h1, ⟨c, h2, _, h3⟩, _⟩ := union_denotes hd
    obtain ⟨x, h4, h5⟩ := structField_denotes h3 (i := 0) (by simp)
    obtain ⟨t, h6, h7⟩ := structField_denotes h3 (i := 1) (by simp)
    obtain ⟨ws, h8, h9⟩ := walk_of_denotes ds t h7
    exact ⟨x :: ws, .cons h1 h2 h4 h6 h8, .cons h5 h9⟩

/-- C05 (lists). `FbleNewListValue(args)` can be walked, and every walk reads values denoting
exactly the arguments, in order. -/
theorem C05_list (poison : Word) {s : St} {args : List Word} {ds : List Data} (hg : Good s)
    (hs : 2 * args.length + 2 ≤ s.supply.length) (ha : All2 (Denotes s.heap) args ds) :
    ∃ w s', mkList poison args s = some (w, s') ∧ (∃ ws, Walk s'.heap w ws) ∧
      ∀ ws, Walk s'.heap w ws → All2 (Denotes s'.heap) ws ds := by
  obtain ⟨w, s', h1, m⟩ := mkList_made poison hg hs ha
  obtain ⟨ws, h2, h3⟩ := walk_of_denotes ds w m.denotes
  exact ⟨w, s', h1, ⟨ws, h2⟩, fun ws' h => by rw [h.det h2]; exact h3⟩

/-- C05 (literals). `FbleNewLiteralValue(letters)` walks as the enum values with these tags. -/
theorem C05_literal (poison : Word) {s : St} (letters : List Nat) (hg : Good s)
    (hs : 3 * letters.length + 2 ≤ s.supply.length) :
    ∃ w s', mkLiteral poison letters s = some (w, s') ∧ (∃ ws, Walk s'.heap w ws) ∧
      ∀ ws, Walk s'.heap w ws → ws.length = letters.length ∧
        ∀ i (h₁ : i < ws.length) (h₂ : i < letters.length), UnionTag s'.heap ws[i] (.ok letters[i]) := by
  obtain ⟨w, s', h1, m⟩ := mkLiteral_made poison letters hg hs
  obtain ⟨ws, h2, h3⟩ := walk_of_denotes _ w m.denotes
  refine ⟨w, s', h1, ⟨ws, h2⟩, fun ws' h => ?_⟩
  rw [h.det h2]
  have hl := h3.length_eq
  simp only [List.length_map] at hl
  refine ⟨hl, fun i h4 h5 => ?_⟩
  have := h3.get i h4 (by simpa using h5)
  simp only [List.getElem_map] at this
  exact (union_denotes this).1

example : Good (emptySt 20) ∧ 3 * [2, 65, 0].length + 2 ≤ (emptySt 20).supply.length :=
  ⟨emptySt_good 20 (by decide), by decide⟩

/-! ### C46, C47 -/

/-- C46 (the least 64 bit integer is excluded, see `C46_violated`): every integer read back
from the value made for it is that integer. -/
theorem C46_int_roundtrip (poison : Word) (x : Int) (s : St) (hx : -2^63 < x) (hx' : x < 2^63)
    (hg : Good s) (hs : 66 ≤ s.supply.length) :
    ∃ w s', mkInt poison x s = some (w, s') ∧ ∀ y, ReadInt s'.heap w y ↔ y = x := by
  obtain ⟨w, s', h1, m⟩ := mkInt_made poison x s hx hx' hg hs
  have hr := readInt_of_denotes x w hx hx' m.denotes
  exact ⟨w, s', h1, fun y => ⟨fun h => h.det hr, fun h => h ▸ hr⟩⟩

/-- C46 is false for the least 64 bit integer: `-x` overflows. -/
theorem C46_violated (poison : Word) (s : St) : mkInt poison (-2^63) s = none := by
  unfold mkInt; simp

example : ∃ w s', mkInt 0 (-1000001) (emptySt 66) = some (w, s') ∧ ReadInt s'.heap w (-1000001) := by
  obtain ⟨w, s', h, h2⟩ := C46_int_roundtrip 0 (-1000001) (emptySt 66) (by decide) (by decide)
    (emptySt_good 66 (by decide)) (by decide)
  exact ⟨w, s', h, (h2 _).mpr rfl⟩

/-- C47. Every string read back from the value made for it is that string with the characters
`Char@` does not have replaced by `?`. -/
theorem C47_string_roundtrip (poison : Word) (str : List Nat) (s : St) (hg : Good s)
    (hs : 4 * str.length + 2 ≤ s.supply.length) :
    ∃ w s', mkString poison str s = some (w, s') ∧
      ∀ cs, ReadString s'.heap w cs ↔ cs = str.map charOrQuestion := by
  obtain ⟨w, s', h1, m⟩ := mkString_made poison str hg hs
  have hr := readString_of_denotes str w m.denotes
  exact ⟨w, s', h1, fun y => ⟨fun h => h.det hr, fun h => h ▸ hr⟩⟩

/-- The characters `Char@` has are newline, tab and the printable ASCII characters. -/
theorem C47_chars (c : Nat) : c ∈ charsTable ↔ c = 10 ∨ c = 9 ∨ (32 ≤ c ∧ c ≤ 126) := by
  simp only [charsTable, List.mem_append, List.mem_cons, List.not_mem_nil, or_false, List.mem_map,
    List.mem_range]
  constructor
  · rintro ((h | h) | ⟨a, h, rfl⟩) <;> omega
  · rintro (h | h | ⟨h1, h2⟩)
    · exact .inl (.inl h)
    · exact .inl (.inr h)
    · exact .inr ⟨c - 32, by omega, by omega⟩

/-- Strings over these characters survive unchanged. -/
theorem C47_plain_unchanged (str : List Nat) (h : ∀ c ∈ str, c ∈ charsTable) :
    str.map charOrQuestion = str := by
  induction str with
  | nil => rfl
  | cons c cs ih =>
    simp only [List.map_cons, charOrQuestion, if_pos (h c (by simp))]
    rw [show cs.map charOrQuestion = cs from ih (fun x hx => h x (by simp [hx]))]

example : ([72, 233, 10] : List Nat).map charOrQuestion = [72, 63, 10] := by decide

end Verif.Pack
