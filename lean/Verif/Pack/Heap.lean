import Verif.Pack.Build
/-
Model of the value constructors with allocation (value.c:1237-1357, 1735-1775) and of the
conversions of pkgs/core/{int,char,string}.fble.c built on them.
-/
namespace Verif.Pack

/-- Heap together with the addresses the allocator will hand out next.  A real allocator picks
them; here they are an arbitrary finite supply (running out = out of memory = `none`). -/
structure St where
  heap : Heap
  supply : List Word

/-- Allocation of a new heap object (`NewValue`, `NewValueExtra`). -/
def alloc (o : Obj) (s : St) : Option (Word × St) :=
  match s.supply with
  | [] => none
  | a :: rest => some (a, ⟨s.heap.set a o, rest⟩)

/-- Complete a constructor. -/
def emit (b : Built) (s : St) : Option (Word × St) :=
  match b with
  | .word w => some (w, s)
  | .obj o => alloc o s

/-- `FbleNewStructValue` (value.c:1237-1277) including the allocation. -/
def mkStruct (poison : Word) (args : List Word) (s : St) : Option (Word × St) :=
  match newStruct poison args with
  | none => none
  | some (b, _) => emit b s

/-- `FbleNewUnionValue` (value.c:1329-1349) including the allocation. -/
def mkUnion (tag : Nat) (arg : Word) (s : St) : Option (Word × St) :=
  match newUnion tag arg with
  | none => none
  | some b => emit b s

/-- `FbleNewEnumValue` (value.c:1351-1357). -/
def mkEnum (poison : Word) (tag : Nat) (s : St) : Option (Word × St) :=
  match mkStruct poison [] s with
  | none => none
  | some (u, s) => mkUnion tag u s

/-- The loop of `FbleNewListValue` (value.c:1740-1746); `args` in the order visited, i.e. last
argument first. -/
def listLoop (poison : Word) : List Word → Word → St → Option (Word × St)
  | [], tail, s => some (tail, s)
  | a :: rest, tail, s =>
    match mkStruct poison [a, tail] s with
    | none => none
    | some (c, s) =>
      match mkUnion 0 c s with
      | none => none
      | some (t, s) => listLoop poison rest t s

/-- `FbleNewListValue` (value.c:1736-1748). -/
def mkList (poison : Word) (args : List Word) (s : St) : Option (Word × St) :=
  match mkStruct poison [] s with
  | none => none
  | some (u, s) =>
    match mkUnion 1 u s with
    | none => none
    | some (t, s) => listLoop poison args.reverse t s

/-- The loop of `FbleNewLiteralValue` (value.c:1767-1773); letters last first. -/
def literalLoop (poison : Word) (unit : Word) : List Nat → Word → St → Option (Word × St)
  | [], tail, s => some (tail, s)
  | l :: rest, tail, s =>
    match mkUnion l unit s with
    | none => none
    | some (a, s) =>
      match mkStruct poison [a, tail] s with
      | none => none
      | some (c, s) =>
        match mkUnion 0 c s with
        | none => none
        | some (t, s) => literalLoop poison unit rest t s

/-- `FbleNewLiteralValue` (value.c:1763-1775). -/
def mkLiteral (poison : Word) (letters : List Nat) (s : St) : Option (Word × St) :=
  match mkStruct poison [] s with
  | none => none
  | some (u, s) =>
    match mkUnion 1 u s with
    | none => none
    | some (t, s) => literalLoop poison u letters.reverse t s

/-! ### Meaning preservation -/

def Heap.le (h h' : Heap) : Prop := ∀ a o, h a = some o → h' a = some o

structure Good (s : St) : Prop where
  fresh : ∀ a ∈ s.supply, Fresh s.heap a
  nodup : s.supply.Nodup

theorem Heap.le_refl (h : Heap) : h.le h := fun _ _ h => h
theorem Heap.le_trans {a b c : Heap} (h1 : a.le b) (h2 : b.le c) : a.le c :=
  fun x o h => h2 x o (h1 x o h)

theorem Heap.le_set {h : Heap} {a : Word} {o : Obj} (hn : h a = none) : h.le (h.set a o) := by
  intro x p hx
  unfold Heap.set
  by_cases hxa : x = a
  · subst hxa; rw [hn] at hx; cases hx
  · simpa [hxa] using hx

theorem Denotes.mono {h h' : Heap} (hle : h.le h') {w : Word} {d : Data} (hd : Denotes h w d) :
    Denotes h' w d := by
  induction hd with
  | packed hp => exact .packed hp
  | struct h1 h2 h3 _ ih => exact .struct h1 (hle _ _ h2) h3 ih
  | union h1 h2 _ ih => exact .union h1 (hle _ _ h2) ih
  | «opaque» h1 h2 => exact .opaque h1 (hle _ _ h2)
  | ref h1 h2 _ ih => exact .ref h1 (hle _ _ h2) ih

theorem Denotes.legal {h : Heap} {w : Word} {d : Data} (hd : Denotes h w d) : Legal w := by
  intro hp
  cases hd with
  | packed h => exact ⟨_, h⟩
  | struct h1 => rw [hp] at h1; cases h1
  | union h1 => rw [hp] at h1; cases h1
  | «opaque» h1 => rw [hp] at h1; cases h1
  | ref h1 => rw [hp] at h1; cases h1

theorem toDatas_eq_map (ds : List PData) : PData.toDatas ds = ds.map PData.toData := by
  induction ds with
  | nil => rfl
  | cons d ds ih => simp [PData.toDatas, ih]

mutual
theorem toData_inj : ∀ d e : PData, d.toData = e.toData → d = e
  | .struct ds, .struct es, h => by
    simp only [PData.toData, Data.struct.injEq] at h; rw [toDatas_inj ds es h]
  | .union t d, .union u e, h => by
    simp only [PData.toData, Data.union.injEq] at h; rw [h.1, toData_inj d e h.2]
  | .struct ds, .union u e, h => by simp [PData.toData] at h
  | .union t d, .struct es, h => by simp [PData.toData] at h
theorem toDatas_inj : ∀ ds es : List PData, PData.toDatas ds = PData.toDatas es → ds = es
  | [], [], _ => rfl
  | [], e :: es, h => by simp [PData.toDatas] at h
  | d :: ds, [], h => by simp [PData.toDatas] at h
  | d :: ds, e :: es, h => by
    simp only [PData.toDatas, List.cons.injEq] at h
    rw [toData_inj d e h.1, toDatas_inj ds es h.2]
end

/-- A value has at most one meaning. -/
theorem Denotes.unique {h : Heap} {w : Word} {d e : Data} (h1 : Denotes h w d)
    (h2 : Denotes h w e) : d = e := by
  induction h1 generalizing e with
  | packed hp =>
    cases h2 with
    | packed hq => rw [packs_unique hp hq]
    | struct h1 => rw [hp.marker] at h1; cases h1
    | union h1 => rw [hp.marker] at h1; cases h1
    | «opaque» h1 => rw [hp.marker] at h1; cases h1
    | ref h1 => rw [hp.marker] at h1; cases h1
  | struct hp hh hl _ ih =>
    cases h2 with
    | packed hq => rw [hq.marker] at hp; cases hp
    | struct _ hh' hl' hd' =>
      rw [hh] at hh'; cases hh'
      congr 1
      apply List.ext_getElem (by omega)
      intro i h1 h2
      exact ih i (by omega) h1 (hd' i (by omega) h2)
    | union _ hh' => rw [hh] at hh'; cases hh'
    | «opaque» _ hh' => rw [hh] at hh'; cases hh'
    | ref _ hh' => rw [hh] at hh'; cases hh'
  | union hp hh _ ih =>
    cases h2 with
    | packed hq => rw [hq.marker] at hp; cases hp
    | struct _ hh' => rw [hh] at hh'; cases hh'
    | union _ hh' hd' => rw [hh] at hh'; cases hh'; rw [ih hd']
    | «opaque» _ hh' => rw [hh] at hh'; cases hh'
    | ref _ hh' => rw [hh] at hh'; cases hh'
  | «opaque» hp hh =>
    cases h2 with
    | packed hq => rw [hq.marker] at hp; cases hp
    | struct _ hh' => rw [hh] at hh'; cases hh'
    | union _ hh' => rw [hh] at hh'; cases hh'
    | «opaque» _ hh' => rw [hh] at hh'; cases hh'; rfl
    | ref _ hh' => rw [hh] at hh'; cases hh'
  | ref hp hh _ ih =>
    cases h2 with
    | packed hq => rw [hq.marker] at hp; cases hp
    | struct _ hh' => rw [hh] at hh'; cases hh'
    | union _ hh' => rw [hh] at hh'; cases hh'
    | «opaque» _ hh' => rw [hh] at hh'; cases hh'
    | ref _ hh' hd' => rw [hh] at hh'; cases hh'; exact ih hd'

/-- Result of a constructor run: succeeded, heap only grew, at most `n` addresses used. -/
structure Made (s : St) (n : Nat) (w : Word) (s' : St) (d : Data) : Prop where
  good : Good s'
  le : s.heap.le s'.heap
  used : s.supply.length ≤ s'.supply.length + n
  denotes : Denotes s'.heap w d

theorem alloc_made {s : St} {o : Obj} (hg : Good s) (hs : 1 ≤ s.supply.length) {d : Data}
    (hd : ∀ h' a, s.heap.le h' → isPacked a = false → h' a = some o → Denotes h' a d) :
    ∃ w s', alloc o s = some (w, s') ∧ Made s 1 w s' d := by
  obtain ⟨heap, supply⟩ := s
  cases supply with
  | nil => simp at hs
  | cons a rest =>
    have hf := hg.fresh a (by simp)
    have hle : heap.le (heap.set a o) := Heap.le_set hf.unused
    refine ⟨a, _, rfl, ⟨?_, ?_⟩, hle, by simp, ?_⟩
    · intro b hb
      have hb' := hg.fresh b (by simp at hb ⊢; exact .inr hb)
      have hne : b ≠ a := by
        have := hg.nodup
        simp only [List.nodup_cons] at this
        intro h; subst h; exact this.1 hb
      exact ⟨hb'.even, hb'.nonnull, hb'.notSentinel, by simp [Heap.set, hne]; exact hb'.unused⟩
    · have := hg.nodup; simp only [List.nodup_cons] at this; exact this.2
    · exact hd _ a hle hf.even (by simp [Heap.set])

theorem mkStruct_made {s : St} (poison : Word) {args : List Word} {ds : List Data} (hg : Good s)
    (hs : 1 ≤ s.supply.length) (ha : All2 (Denotes s.heap) args ds) :
    ∃ w s', mkStruct poison args s = some (w, s') ∧ Made s 1 w s' (.struct ds) := by
  have hleg : ∀ a ∈ args, Legal a := fun a h => by
    obtain ⟨d, _, hd⟩ := ha.mem_left h; exact hd.legal
  unfold mkStruct
  rcases newStruct_spec poison args hleg with ⟨w, es, h1, h2, h3⟩ | ⟨ub, h1⟩
  · rw [h1]
    refine ⟨w, s, rfl, hg, Heap.le_refl _, by omega, ?_⟩
    have hes : PData.toDatas es = ds := by
      rw [toDatas_eq_map]
      have hlen := h2.length_eq
      have hlen2 := ha.length_eq
      apply List.ext_getElem (by simp; omega)
      intro i h4 h5
      simp only [List.getElem_map]
      exact (Denotes.packed (h := s.heap) (h2.get i (by omega) (by simpa using h4))).unique
        (ha.get i (by omega) h5)
    have := Denotes.packed (h := s.heap) h3
    simpa [PData.toData, hes] using this
  · rw [h1]
    apply alloc_made hg hs
    intro h' a hle hp hh
    exact .struct hp hh ha.length_eq (fun i h4 h5 => (ha.get i h4 h5).mono hle)

theorem mkUnion_made {s : St} {tag : Nat} {arg : Word} {d : Data} (hg : Good s)
    (hs : 1 ≤ s.supply.length) (ha : Denotes s.heap arg d) :
    ∃ w s', mkUnion tag arg s = some (w, s') ∧ Made s 1 w s' (.union tag d) := by
  unfold mkUnion
  rcases newUnion_spec tag arg ha.legal with ⟨w, e, h1, h2, h3⟩ | h1
  · rw [h1]
    refine ⟨w, s, rfl, hg, Heap.le_refl _, by omega, ?_⟩
    have := Denotes.packed (h := s.heap) h3
    rw [show d = e.toData from ha.unique (.packed h2)]
    simpa [PData.toData] using this
  · rw [h1]
    apply alloc_made hg hs
    intro h' a hle hp hh
    exact .union hp hh (ha.mono hle)

theorem Made.trans {s s' s'' : St} {n m : Nat} {w w' : Word} {d d' : Data}
    (h1 : Made s n w s' d) (h2 : Made s' m w' s'' d') : Made s (n + m) w' s'' d' :=
  ⟨h2.good, Heap.le_trans h1.le h2.le, by have := h1.used; have := h2.used; omega, h2.denotes⟩

/-- The unit value `*()`. -/
def unitData : Data := .struct []
/-- The list of data `ds` in the representation of list literals: a union with tag 0 for a cons
struct of head and tail, and with tag 1 for the empty list. -/
def listData : List Data → Data
  | [] => .union 1 unitData
  | d :: ds => .union 0 (.struct [d, listData ds])
/-- The enum value with the given tag. -/
def enumData (tag : Nat) : Data := .union tag unitData

theorem mkEnum_made {s : St} (poison : Word) (tag : Nat) (hg : Good s)
    (hs : 2 ≤ s.supply.length) :
    ∃ w s', mkEnum poison tag s = some (w, s') ∧ Made s 2 w s' (enumData tag) := by
  obtain ⟨u, s1, h1, m1⟩ := mkStruct_made poison (args := []) (ds := []) hg (by omega) .nil
  obtain ⟨w, s2, h2, m2⟩ := mkUnion_made (tag := tag) m1.good (by have := m1.used; omega) m1.denotes
  exact ⟨w, s2, by simp [mkEnum, h1, h2], m1.trans m2⟩

theorem listLoop_made (poison : Word) : ∀ (args : List Word) (ds : List Data) (tail : Word)
    (done : List Data) (s : St), Good s → 2 * args.length ≤ s.supply.length →
    All2 (Denotes s.heap) args ds → Denotes s.heap tail (listData done) →
    ∃ w s', listLoop poison args tail s = some (w, s') ∧
      Made s (2 * args.length) w s' (listData (ds.reverse ++ done))
  | [], [], tail, done, s, hg, _, _, ht =>
    ⟨tail, s, rfl, hg, Heap.le_refl _, by simp, by simpa using ht⟩
  | [], _ :: _, _, _, _, _, _, h, _ => by cases h
  | a :: args, [], _, _, _, _, _, h, _ => by cases h
  | a :: args, d :: ds, tail, done, s, hg, hs, ha, ht => by
    cases ha with
    | cons had hads =>
    simp only [List.length_cons] at hs
    obtain ⟨c, s1, h1, m1⟩ := mkStruct_made poison hg (by omega) (.cons had (.cons ht .nil))
    obtain ⟨t, s2, h2, m2⟩ := mkUnion_made (tag := 0) m1.good (by have := m1.used; omega) m1.denotes
    have m12 := m1.trans m2
    obtain ⟨w, s3, h3, m3⟩ := listLoop_made poison args ds t (d :: done) s2 m2.good
      (by have := m12.used; omega)
      (hads.mono (fun _ _ h => h.mono m12.le)) m2.denotes
    refine ⟨w, s3, by simp [listLoop, h1, h2, h3], ?_⟩
    have := m12.trans m3
    refine ⟨this.good, this.le, by have := this.used; simp only [List.length_cons]; omega, ?_⟩
    simpa using this.denotes

theorem mkList_made {s : St} (poison : Word) {args : List Word} {ds : List Data} (hg : Good s)
    (hs : 2 * args.length + 2 ≤ s.supply.length) (ha : All2 (Denotes s.heap) args ds) :
    ∃ w s', mkList poison args s = some (w, s') ∧
      Made s (2 * args.length + 2) w s' (listData ds) := by
  obtain ⟨u, s1, h1, m1⟩ := mkStruct_made poison (args := []) (ds := []) hg (by omega) .nil
  obtain ⟨t, s2, h2, m2⟩ := mkUnion_made (tag := 1) m1.good (by have := m1.used; omega) m1.denotes
  have m12 := m1.trans m2
  obtain ⟨w, s3, h3, m3⟩ := listLoop_made poison args.reverse ds.reverse t [] s2 m2.good
    (by have := m12.used; simp; omega)
    (ha.reverse.mono (fun _ _ h => h.mono m12.le)) m2.denotes
  refine ⟨w, s3, by simp [mkList, h1, h2, h3], ?_⟩
  have := m12.trans m3
  refine ⟨this.good, this.le, by have := this.used; simp at this; omega, ?_⟩
  simpa using this.denotes

theorem literalLoop_made (poison u : Word) : ∀ (letters : List Nat) (tail : Word)
    (done : List Data) (s : St), Good s → 3 * letters.length ≤ s.supply.length →
    Denotes s.heap u unitData → Denotes s.heap tail (listData done) →
    ∃ w s', literalLoop poison u letters tail s = some (w, s') ∧
      Made s (3 * letters.length) w s' (listData ((letters.map enumData).reverse ++ done))
  | [], tail, done, s, hg, _, _, ht =>
    ⟨tail, s, rfl, hg, Heap.le_refl _, by simp, by simpa using ht⟩
  | l :: ls, tail, done, s, hg, hs, hu, ht => by
    simp only [List.length_cons] at hs
    obtain ⟨a, s0, h0, m0⟩ := mkUnion_made (tag := l) hg (by omega) hu
    obtain ⟨c, s1, h1, m1⟩ := mkStruct_made poison m0.good (by have := m0.used; omega)
      (.cons m0.denotes (.cons (ht.mono m0.le) .nil))
    have m01 := m0.trans m1
    obtain ⟨t, s2, h2, m2⟩ := mkUnion_made (tag := 0) m1.good (by have := m01.used; omega) m1.denotes
    have m12 := m01.trans m2
    obtain ⟨w, s3, h3, m3⟩ := literalLoop_made poison u ls t (enumData l :: done) s2 m2.good
      (by have := m12.used; omega) (hu.mono m12.le) m2.denotes
    refine ⟨w, s3, by simp [literalLoop, h0, h1, h2, h3], ?_⟩
    have := m12.trans m3
    refine ⟨this.good, this.le, by have := this.used; simp only [List.length_cons]; omega, ?_⟩
    simpa using this.denotes

theorem mkLiteral_made {s : St} (poison : Word) (letters : List Nat) (hg : Good s)
    (hs : 3 * letters.length + 2 ≤ s.supply.length) :
    ∃ w s', mkLiteral poison letters s = some (w, s') ∧
      Made s (3 * letters.length + 2) w s' (listData (letters.map enumData)) := by
  obtain ⟨u, s1, h1, m1⟩ := mkStruct_made poison (args := []) (ds := []) hg (by omega) .nil
  obtain ⟨t, s2, h2, m2⟩ := mkUnion_made (tag := 1) m1.good (by have := m1.used; omega) m1.denotes
  have m12 := m1.trans m2
  obtain ⟨w, s3, h3, m3⟩ := literalLoop_made poison u letters.reverse t [] s2 m2.good
    (by have := m12.used; simp; omega) (m1.denotes.mono m2.le) m2.denotes
  refine ⟨w, s3, by simp [mkLiteral, h1, h2, h3], ?_⟩
  have := m12.trans m3
  refine ⟨this.good, this.le, by have := this.used; simp at this; omega, ?_⟩
  have hd := this.denotes
  simpa using hd

/-! ### Accessors -/

/-- `FbleStructValueField(w, i)` returns `r`. -/
def StructField (h : Heap) (w : Word) (i : Nat) (r : Acc Word) : Prop :=
  ∃ o, Strict h w o ∧ onStrict (fun x => structFieldStrict h x i) o = r
/-- `FbleUnionValueTag(w)` returns `r`. -/
def UnionTag (h : Heap) (w : Word) (r : Acc Nat) : Prop :=
  ∃ o, Strict h w o ∧ onStrict (unionTagStrict h) o = r
/-- `FbleUnionValueArg(w)` returns `r`. -/
def UnionArg (h : Heap) (w : Word) (r : Acc Word) : Prop :=
  ∃ o, Strict h w o ∧ onStrict (unionArgStrict h) o = r
/-- `FbleUnionValueField(w, i)` returns `r`. -/
def UnionField (h : Heap) (w : Word) (i : Nat) (r : Acc Word) : Prop :=
  ∃ o, Strict h w o ∧ onStrict (fun x => unionFieldStrict h x i) o = r

theorem Strict.det {h : Heap} {w : Word} {o p : Option Word} (h1 : Strict h w o)
    (h2 : Strict h w p) : o = p := by
  induction h1 with
  | packed hp =>
    cases h2 with
    | packed => rfl
    | obj => rfl
    | unassigned h => rw [hp] at h; cases h
    | step h => rw [hp] at h; cases h
  | obj hp hh hr =>
    cases h2 with
    | packed => rfl
    | obj => rfl
    | unassigned _ h => rw [hh] at h; cases h; exact absurd rfl (hr _)
    | step _ h => rw [hh] at h; cases h; exact absurd rfl (hr _)
  | unassigned hp hh =>
    cases h2 with
    | packed h => rw [hp] at h; cases h
    | obj _ h hr => rw [hh] at h; cases h; exact absurd rfl (hr _)
    | unassigned => rfl
    | step _ h => rw [hh] at h; cases h
  | step hp hh _ ih =>
    cases h2 with
    | packed h => rw [hp] at h; cases h
    | obj _ h hr => rw [hh] at h; cases h; exact absurd rfl (hr _)
    | unassigned _ h => rw [hh] at h; cases h
    | step _ h h' => rw [hh] at h; cases h; exact ih h'

/-- `StrictValue` of a meaningful value is a value with the same meaning that is packed or a
non-reference object. -/
theorem Denotes.strict {h : Heap} {w : Word} {d : Data} (hd : Denotes h w d) :
    ∃ o, Strict h w (some o) ∧ Denotes h o d ∧ (isPacked o = false → ∀ r, h o ≠ some (.ref r)) := by
  induction hd with
  | packed hp => exact ⟨_, .packed hp.marker, .packed hp, by rw [hp.marker]; simp⟩
  | struct h1 h2 h3 h4 _ =>
    exact ⟨_, .obj h1 h2 (by simp), .struct h1 h2 h3 h4, by intro _ r; rw [h2]; simp⟩
  | union h1 h2 h3 _ =>
    exact ⟨_, .obj h1 h2 (by simp), .union h1 h2 h3, by intro _ r; rw [h2]; simp⟩
  | «opaque» h1 h2 => exact ⟨_, .obj h1 h2 (by simp), .opaque h1 h2, by intro _ r; rw [h2]; simp⟩
  | ref h1 h2 _ ih => obtain ⟨o, a, b, c⟩ := ih; exact ⟨o, .step h1 h2 a, b, c⟩

theorem structField_denotes {h : Heap} {w : Word} {ds : List Data}
    (hd : Denotes h w (.struct ds)) {i : Nat} (hi : i < ds.length) :
    ∃ r, StructField h w i (.ok r) ∧ Denotes h r ds[i] := by
  obtain ⟨o, hs, hd', hnr⟩ := hd.strict
  generalize hde : Data.struct ds = d at hd'
  cases hd' with
  | @packed _ e hp =>
    cases e with
    | union t e => simp [PData.toData] at hde
    | struct es =>
      simp only [PData.toData, Data.struct.injEq, toDatas_eq_map] at hde
      subst hde
      simp only [List.length_map] at hi
      obtain ⟨r, h1, h2⟩ := structFieldStrict_packed (h := h) hp hi
      refine ⟨r, ⟨_, hs, h1⟩, ?_⟩
      have := Denotes.packed (h := h) h2
      simpa using this
  | struct h1 h2 h3 h4 =>
    cases hde
    refine ⟨_, ⟨_, hs, ?_⟩, h4 i (by omega) hi⟩
    simp only [onStrict, structFieldStrict]
    rw [if_neg (by simp [h1]), h2]
    simp only [List.getElem?_eq_getElem (h3 ▸ hi)]
  | union => cases hde
  | «opaque» => cases hde
  | ref h1 h2 => exact absurd h2 (hnr h1 _)

theorem union_denotes {h : Heap} {w : Word} {tag : Nat} {d : Data}
    (hd : Denotes h w (.union tag d)) :
    UnionTag h w (.ok tag) ∧
    (∃ r, UnionArg h w (.ok r) ∧ UnionField h w tag (.ok r) ∧ Denotes h r d) ∧
    (∀ t, t ≠ tag → UnionField h w t (.ok wrongUnionTag)) := by
  obtain ⟨o, hs, hd', hnr⟩ := hd.strict
  generalize hde : Data.union tag d = e at hd'
  cases hd' with
  | @packed _ e hp =>
    cases e with
    | struct es => simp [PData.toData] at hde
    | union t e =>
      simp only [PData.toData, Data.union.injEq] at hde
      obtain ⟨rfl, rfl⟩ := hde
      obtain ⟨h1, ⟨r, h2, h3, h4⟩, h5⟩ := unionStrict_packed (h := h) hp
      exact ⟨⟨_, hs, h1⟩, ⟨r, ⟨_, hs, h2⟩, ⟨_, hs, h3⟩, .packed h4⟩, fun t ht => ⟨_, hs, h5 t ht⟩⟩
  | struct => cases hde
  | union h1 h2 h3 =>
    cases hde
    refine ⟨⟨_, hs, ?_⟩, ⟨_, ⟨_, hs, ?_⟩, ⟨_, hs, ?_⟩, h3⟩, fun t ht => ⟨_, hs, ?_⟩⟩
    · simp [onStrict, unionTagStrict, h1, h2]
    · simp only [onStrict, unionArgStrict, h1, h2]; rfl
    · simp [onStrict, unionFieldStrict, h1, h2]
    · simp [onStrict, unionFieldStrict, h1, h2, Ne.symm ht]
  | «opaque» => cases hde
  | ref h1 h2 => exact absurd h2 (hnr h1 _)

end Verif.Pack
