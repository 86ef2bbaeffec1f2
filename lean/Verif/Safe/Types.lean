import Verif.Elab.Frame
import Verif.Types.Thm
/-
Types that are not polymorphic, while a program is checked and afterwards.

Abstract types only matter to the type checker: a value of an abstract type is a value of the type
inside.  So the types of values are read in a heap in which all packages are transparent.
-/
namespace Verif.Elab
open Types

/-- A node of a heap without polymorphic types, with all packages opaque. -/
def NodeIn (h : Heap) : Node → Prop
  | .poly _ _ => False
  | .polyApply _ _ => False
  | .abstract q u => u < h.length ∧ ∃ path, h[q]? = some (.package path true)
  | .package _ opaq => opaq = true
  | .var k v => (∃ l, k = .basic l) ∧ ∀ w, v = some w → w < h.length
  | .data _ fs => ∀ f ∈ fs, f.2 < h.length
  | .func a r => a < h.length ∧ r < h.length
  | .type t => t < h.length

def PreHeap (h : Heap) : Prop := ∀ (p : Nat) (n : Node), h[p]? = some n → NodeIn h n

/-- A heap without polymorphic types, in which every cycle goes through a proper type. -/
structure MonoHeap (h : Heap) : Prop where
  nodes : PreHeap h
  proper : ∀ p, p < h.length → ∃ q, Is h [] q p

theorem PreHeap.mono0 {h : Heap} (hm : PreHeap h) : Mono0 h (· < h.length) := by
  refine ⟨fun {t} ht => ⟨h[t], List.getElem?_eq_getElem ht⟩, fun {t a b} _ hg => hm t _ hg, fun {t a b} _ hg => hm t _ hg, ?_, ?_, ?_⟩
  · intro t n c _ hg hc
    have := hm t _ hg
    cases n with
    | data dt fs =>
      obtain ⟨f, hf, rfl⟩ := List.mem_map.mp hc
      exact this f hf
    | func a r =>
      simp only [Node.children, List.mem_cons, List.not_mem_nil, or_false] at hc
      rcases hc with rfl | rfl
      · exact this.1
      · exact this.2
    | poly a b => exact this.elim
    | polyApply a b => exact this.elim
    | package _ _ => simp [Node.children] at hc
    | abstract q u =>
      simp only [Node.children, List.mem_cons, List.not_mem_nil, or_false] at hc
      rcases hc with rfl | rfl
      · obtain ⟨path, hp⟩ := this.2
        exact (List.getElem?_eq_some_iff.mp hp).1
      · exact this.1
    | var k v => simp [Node.children] at hc
    | type t' =>
      simp only [Node.children, List.mem_cons, List.not_mem_nil, or_false] at hc
      subst hc; exact this
  · intro t k v _ hg
    exact (hm t _ hg).2 v rfl
  · intro t q u _ hg
    obtain ⟨path, hp⟩ := (hm t _ hg).2
    exact ⟨path, true, hp⟩

theorem MonoHeap.mono {h : Heap} (hm : MonoHeap h) : Mono h [] (· < h.length) := by
  have := hm.nodes.mono0
  exact ⟨this.node, this.noPoly, this.noApply, this.child, this.value, fun _ ha => by simp [assigned] at ha, this.package, fun ht => hm.proper _ ht⟩

theorem PreHeap.final {h : Heap} (hm : PreHeap h) {p : Ptr} {n : Node} (hg : h[p]? = some n) (hv : ∀ k v, n ≠ .var k (some v)) : Final h [] p := by
  refine final_normal hg hv rfl ?_
  intro q t path e
  rw [e] at hg
  obtain ⟨path', hp⟩ := (hm p _ hg).2
  rw [hp]; simp

theorem PreHeap.is_normal {h : Heap} (hm : PreHeap h) {p t : Ptr} (hn : NormalTo h p t) : Is h [] p t := by
  obtain ⟨n, h1, h2⟩ := hn.node
  exact (hn.is p).mpr (.here (hm.final h1 h2))

theorem is_lt {h : Heap} {p t : Ptr} (hi : Is h [] p t) : p < h.length := by
  induction hi with
  | here hf => obtain ⟨n, hn⟩ := hf.node; exact (List.getElem?_eq_some_iff.mp hn).1
  | value _ _ ih => exact ih
  | inferred _ _ _ ih => exact ih
  | unwrap _ _ _ ih => exact ih

/-- The type stands for such a node. -/
def IsNode (h : Heap) (T : Ptr) (n : Node) : Prop := ∃ p, Is h [] p T ∧ h[p]? = some n

/-- What becomes of a type until the end. -/
def Fin (n n' : Node) : Prop :=
  n' = n ∨ (∃ k k' v, n = .var k none ∧ n' = .var k' v) ∨ (∃ path o, n = .package path true ∧ n' = .package path o)

/-- `H` is the heap at the end or later. -/
def Ends (h H : Heap) : Prop := ∀ (p : Nat) (n : Node), h[p]? = some n → ∃ n', H[p]? = some n' ∧ Fin n n'

/-- All packages are transparent; if casts are allowed (`Ca`) then every type is a proper type even so. -/
structure Opened (Ca : Prop) (H : Heap) : Prop where
  inside : ∀ (p : Nat) q u, H[p]? = some (.abstract q u) → ∃ path, H[q]? = some (.package path false)
  all : ∀ (p : Nat) path o, H[p]? = some (.package path o) → o = false
  proper : Ca → ∀ p, p < H.length → ∃ q, Is H [] q p

/-- The heap with all packages transparent. -/
def openAll (h : Heap) : Heap := h.map fun | .package path _ => .package path false | n => n

/-- No package is transparent; and if casts are allowed then every type would be a proper type even if all were. -/
structure Closed (Ca : Prop) (H : Heap) : Prop where
  all : ∀ (p : Nat) path o, H[p]? = some (.package path o) → o = true
  proper : Ca → ∀ p, p < H.length → ∃ q, Is (openAll H) [] q p

def Uniform (Ca : Prop) (H : Heap) : Prop := Opened Ca H ∨ Closed Ca H

/-- All packages are transparent in the end, or no others than now. -/
def AllOrSame (h H : Heap) : Prop :=
  (∀ (p : Nat) q u, H[p]? = some (.abstract q u) → ∃ path, H[q]? = some (.package path false)) ∨
    ∀ (q : Nat) path o, h[q]? = some (.package path true) → H[q]? = some (.package path o) → o = true

theorem Uniform.later {Ca : Prop} {h H : Heap} (hu : Uniform Ca H) : AllOrSame h H := by
  rcases hu with h1 | h1
  · exact .inl h1.inside
  · exact .inr fun q path o _ h2 => h1.all _ _ _ h2

theorem Opened.uniform {Ca : Prop} {H : Heap} (h : Opened Ca H) : Uniform Ca H := .inl h
theorem Opened.later {Ca : Prop} {h H : Heap} (hO : Opened Ca H) : AllOrSame h H := hO.uniform.later
theorem Closed.uniform {Ca : Prop} {H : Heap} (h : Closed Ca H) : Uniform Ca H := .inr h
theorem Closed.later {Ca : Prop} {h H : Heap} (hO : Closed Ca H) : AllOrSame h H := hO.uniform.later

theorem Fin.refl (n : Node) : Fin n n := .inl rfl

theorem Fin.trans {a b c : Node} (h : Fin a b) (h' : Fin b c) : Fin a c := by
  rcases h with rfl | ⟨k, k', v, rfl, rfl⟩ | ⟨path, o, rfl, rfl⟩
  · exact h'
  · rcases h' with rfl | ⟨k1, k2, v', h1, rfl⟩ | ⟨path, o, h1, _⟩
    · exact .inr (.inl ⟨_, _, _, rfl, rfl⟩)
    · exact .inr (.inl ⟨_, _, _, rfl, rfl⟩)
    · cases h1
  · rcases h' with rfl | ⟨k1, k2, v', h1, rfl⟩ | ⟨path, o, h1, rfl⟩
    · exact .inr (.inr ⟨_, _, rfl, rfl⟩)
    · cases h1
    · cases h1; exact .inr (.inr ⟨_, _, rfl, rfl⟩)

theorem Ends.refl (h : Heap) : Ends h h := fun _ n hn => ⟨n, hn, .refl n⟩
theorem Ends.trans {a b c : Heap} (h : Ends a b) (h' : Ends b c) : Ends a c := by
  intro p n hn
  obtain ⟨n1, h1, h2⟩ := h p n hn
  obtain ⟨n2, h3, h4⟩ := h' p n1 h1
  exact ⟨n2, h3, h2.trans h4⟩

theorem Ends.prefix {h h' : Heap} (hp : h <+: h') : Ends h h' := by
  obtain ⟨x, rfl⟩ := hp
  intro p n hn
  refine ⟨n, ?_, .refl n⟩
  rw [List.getElem?_append_left (List.getElem?_eq_some_iff.mp hn).1]; exact hn

section
variable {h H : Heap} (he : Ends h H)
include he

/-- Following variables that have a value. -/
theorem lift_is {p b q : Ptr} (hi : Is h [] p b) (hq : Is H [] q p) : Is H [] q b := by
  induction hi with
  | here _ => exact hq
  | @value t k v hg _ ih =>
    obtain ⟨n', h1, h2⟩ := he _ _ hg
    rcases h2 with rfl | ⟨k1, k2, v', h2, _⟩ | ⟨path, o, h2, _⟩
    · exact .value h1 ih
    · cases h2
    · cases h2
  | inferred _ ha => simp [assigned] at ha
  | unwrap hg hq' _ ih =>
    obtain ⟨n', h1, h2⟩ := he _ _ hg
    obtain ⟨m', h3, h4⟩ := he _ _ hq'
    rcases h2 with rfl | ⟨k1, k2, v', h2, _⟩ | ⟨path, o, h2, _⟩
    · rcases h4 with rfl | ⟨k1, k2, v', h4, _⟩ | ⟨path, o, h4, _⟩
      · exact .unwrap h1 h3 ih
      · cases h4
      · cases h4
    · cases h2
    · cases h2

/-- What is no variable is still there. -/
theorem ends_node {p : Ptr} {n : Node} (hg : h[p]? = some n) (hv : ∀ k, n ≠ .var k none) (hk : ∀ path o, n ≠ .package path o) : H[p]? = some n := by
  obtain ⟨n', h1, h2⟩ := he _ _ hg
  rcases h2 with rfl | ⟨k1, k2, v', h2, _⟩ | ⟨path, o, h2, _⟩
  · exact h1
  · exact absurd h2 (hv _)
  · exact absurd h2 (hk _ _)

theorem ends_is {p b : Ptr} {n : Node} (hi : Is h [] p b) (hg : h[p]? = some n) (hv : ∀ k v, n ≠ .var k v) (hk : ∀ path o, n ≠ .package path o)
    (ha : ∀ q u, n ≠ .abstract q u) : Is H [] p b ∧ H[p]? = some n := by
  have := ends_node he hg (fun k => hv k none) hk
  refine ⟨lift_is he hi (.here ?_), this⟩
  exact final_normal this (fun k v => hv k (some v)) rfl fun q t path e => absurd e (ha q t)

theorem ends_isNode {T : Ptr} {n : Node} (hi : IsNode h T n) (hv : ∀ k v, n ≠ .var k v) (hk : ∀ path o, n ≠ .package path o) (ha : ∀ q u, n ≠ .abstract q u) : IsNode H T n := by
  obtain ⟨p, h1, h2⟩ := hi
  exact ⟨p, ends_is he h1 h2 hv hk ha⟩

variable (hmm : Mono h [] (· < h.length)) (ho : AllOrSame h H)
include hmm ho

theorem same_is {p a : Ptr} (hi : Is H [] p a) : ∀ b, a < h.length → b < h.length → SameType h [] a b →
    ∃ q, Is H [] q b ∧ (q = p ∨ ∃ n m, H[p]? = some n ∧ H[q]? = some m ∧ n.binders = [] ∧ m.binders = [] ∧ label H [] p n = label H [] q m ∧
      All2 (fun c d => c < h.length ∧ d < h.length ∧ SameType h [] c d) n.children m.children) := by
  -- both sides stand for types of the old heap
  have old : ∀ a b, a < h.length → b < h.length → SameType h [] a b → ∀ na, h[a]? = some na → Final h [] a →
      ∃ pb nb, (Is h [] pb b ∧ Final h [] pb) ∧ h[pb]? = some nb ∧ pb < h.length ∧ label h [] a na = label h [] pb nb ∧
        All2 (fun c d => c < h.length ∧ d < h.length ∧ SameType h [] c d) na.children nb.children := by
    intro a b ha hb hs na hna hfa
    obtain ⟨pb, hpb⟩ := hmm.proper hb
    have hlt := is_lt hpb
    have hfb : Final h [] pb := by
      clear hs
      induction hpb with
      | here hf => exact hf
      | value hg _ ih => exact ih (hmm.value hb hg)
      | inferred _ hi => simp [assigned] at hi
      | unwrap hg _ _ ih => exact ih (hmm.child hb hg (by simp [Node.children]))
    have hsame : SameType h [] a pb := sameType_right (fun q => ⟨fun h1 => by rw [h1.unique hpb]; exact .here hfb, fun h1 => by rw [(is_final hfb q).mp h1]; exact hpb⟩) hs
    obtain ⟨nb, hnb⟩ := hfb.node
    obtain ⟨h1, h2⟩ := sameType_final hmm ha hlt hfa hfb hna hnb hsame
    refine ⟨pb, nb, ⟨hpb, hfb⟩, hnb, hlt, h1, All2.of_get h2.length_eq fun i hi hj => ⟨?_, ?_, h2.get i hi hj⟩⟩
    · exact hmm.child ha hna (List.getElem_mem hi)
    · exact hmm.child hlt hnb (List.getElem_mem hj)
  have labs : ∀ {p q : Ptr} {n m : Node}, h[p]? = some n → h[q]? = some m → label h [] p n = label h [] q m → (∀ k v, n ≠ .var k v) → (∀ k v, m ≠ .var k v) → label H [] p n = label H [] q m := by
    intro p q n m hn hmn hl h1 h2
    cases n <;> cases m <;> simp [label] at hl h1 h2 ⊢
    all_goals first | exact hl | exact absurd hn (hmm.noApply (List.getElem?_eq_some_iff.mp hn).1) | exact absurd hn (hmm.noPoly (List.getElem?_eq_some_iff.mp hn).1)
  induction hi with
  | here hf =>
    intro b ha hb hs
    obtain ⟨n, hn⟩ := hmm.node ha
    obtain ⟨n', h1, h2⟩ := he _ _ hn
    have hnv : ∀ k v, n ≠ .var k (some v) := by
      rintro k v rfl
      rcases h2 with rfl | ⟨k1, k2, v', h2, _⟩ | ⟨path, o, h2, _⟩
      · exact hf.noValue _ _ h1
      · cases h2
      · cases h2
    have hno : ∀ q t path, n = .abstract q t → h[q]? ≠ some (.package path false) := by
      rintro q u path rfl hq
      have h3 := ends_node he hn (by simp) (by simp)
      obtain ⟨m', h4, h5⟩ := he _ _ hq
      rcases h5 with rfl | ⟨k1, k2, v', h5, _⟩ | ⟨path, o, h5, _⟩
      · exact hf.opaq _ _ _ h3 h4
      · cases h5
      · cases h5
    obtain ⟨pb, nb, ⟨g1, gf⟩, g2, g3, g4, g5⟩ := old p b ha hb hs n hn (final_normal hn hnv rfl hno)
    by_cases hab : ∃ q u, n = .abstract q u
    · obtain ⟨q, u, rfl⟩ := hab
      have h3 := ends_node he hn (by simp) (by simp)
      rcases ho with ho | ho
      · obtain ⟨path, hq⟩ := ho _ _ _ h3
        exact (hf.opaq _ _ _ h3 hq).elim
      · cases nb with
        | abstract q' u' =>
          have h4 := ends_node he g2 (by simp) (by simp)
          obtain ⟨path', o', h5⟩ := hmm.package g3 g2
          have ho' : o' = true := by
            cases o' with
            | true => rfl
            | false => exact (gf.opaq _ _ _ g2 h5).elim
          subst ho'
          have hfin : Final H [] pb := final_normal h4 (by simp) rfl (by
            rintro q1 t1 path1 e hq1
            cases e
            obtain ⟨m', h6, h7⟩ := he _ _ h5
            rw [hq1] at h6
            cases h6
            have : path1 = path' := by
              rcases h7 with h7 | ⟨k1, k2, v', h7, _⟩ | ⟨path, o, h7, h8⟩
              · cases h7
              · cases h7
              · cases h7; cases h8; rfl
            subst this
            cases ho _ _ _ h5 hq1)
          exact ⟨pb, lift_is he g1 (.here hfin), .inr ⟨_, _, h3, h4, binders_nil hmm.mono0 ha hn, binders_nil hmm.mono0 g3 g2, rfl, g5⟩⟩
        | _ => simp [label] at g4
    replace hab : ∀ q u, n ≠ .abstract q u := fun q u e => hab ⟨q, u, e⟩
    by_cases hv : ∃ k, n = .var k none
    · obtain ⟨k, rfl⟩ := hv
      have : pb = p := by
        cases nb with
        | var k' v' => simp [label] at g4; exact g4.symm
        | _ => simp [label] at g4
      subst this
      exact ⟨pb, lift_is he g1 (.here hf), .inl rfl⟩
    · have hv' : ∀ k v, n ≠ .var k v := by
        rintro k (_ | v) rfl
        · exact hv ⟨k, rfl⟩
        · exact hnv k v rfl
      have hnb : ∀ k v, nb ≠ .var k v := by
        rintro k v rfl
        cases n <;> simp [label] at g4
        exact hv' _ _ rfl
      by_cases hpk : ∃ path o, n = .package path o
      · obtain ⟨path, o, rfl⟩ := hpk
        cases nb with
        | package path' o' =>
          simp [label] at g4
          subst g4
          obtain ⟨n2, h3, h4⟩ := he _ _ g2
          have e1 : ∃ o1, n' = .package path o1 := by
            rcases h2 with rfl | ⟨k1, k2, v', h2, _⟩ | ⟨path, o, h2, rfl⟩
            · exact ⟨_, rfl⟩
            · cases h2
            · cases h2; exact ⟨_, rfl⟩
          have e2 : ∃ o2, n2 = .package path o2 := by
            rcases h4 with rfl | ⟨k1, k2, v', h2, _⟩ | ⟨path, o, h2, rfl⟩
            · exact ⟨_, rfl⟩
            · cases h2
            · cases h2; exact ⟨_, rfl⟩
          obtain ⟨o1, rfl⟩ := e1
          obtain ⟨o2, rfl⟩ := e2
          refine ⟨pb, lift_is he g1 (.here (final_normal h3 (by simp) rfl (by simp))), .inr ⟨_, _, h1, h3, rfl, rfl, rfl, .nil⟩⟩
        | _ => simp [label] at g4
      · have hpk' : ∀ path o, n ≠ .package path o := fun path o e => hpk ⟨path, o, e⟩
        have hpb : ∀ path o, nb ≠ .package path o := by
          rintro path o rfl
          cases n <;> simp [label] at g4
          exact hpk' _ _ rfl
        have hab' : ∀ q u, nb ≠ .abstract q u := by
          rintro q u rfl
          cases n <;> simp [label] at g4
          exact hab _ _ rfl
        obtain ⟨h3, h4⟩ := ends_is he g1 g2 hnb hpb hab'
        have h5 := ends_node he hn (fun k => hv' k none) hpk'
        exact ⟨pb, h3, .inr ⟨n, nb, h5, h4, binders_nil hmm.mono0 ha hn, binders_nil hmm.mono0 g3 g2, labs hn g2 g4 hv' hnb, g5⟩⟩
  | @value t k v hg hi ih =>
    intro b ha hb hs
    obtain ⟨n, hn⟩ := hmm.node ha
    obtain ⟨n', h1, h2⟩ := he _ _ hn
    have h1' := h1
    rw [hg] at h1; cases h1
    rcases h2 with rfl | ⟨k1, k2, v', rfl, h3⟩ | ⟨path, o, h2, h3⟩
    · exact ih b (hmm.value ha hn) hb (sameType_left (is_value hn) hs)
    · obtain ⟨pb, nb, ⟨g1, gf⟩, g2, g3, g4, g5⟩ := old t b ha hb hs _ hn (final_normal hn (by simp) rfl (by simp))
      have : pb = t := by
        cases nb with
        | var k' v' => simp [label] at g4; exact g4.symm
        | _ => simp [label] at g4
      subst this
      exact ⟨p, lift_is he g1 (.value hg hi), .inl rfl⟩
    · cases h3
  | inferred _ ha => simp [assigned] at ha
  | @unwrap t q u path hg hq hi ih =>
    intro b ha hb hs
    obtain ⟨n, hn⟩ := hmm.node ha
    obtain ⟨n', h1, h2⟩ := he _ _ hn
    rw [hg] at h1; cases h1
    rcases h2 with rfl | ⟨k1, k2, v', _, h3⟩ | ⟨path, o, h2, h3⟩
    · obtain ⟨path2, o2, hp⟩ := hmm.package ha hn
      cases o2 with
      | false => exact ih b (hmm.child ha hn (by simp [Node.children])) hb (sameType_left (is_unwrap hn hp) hs)
      | true =>
        obtain ⟨pb, nb, ⟨g1, gf⟩, g2, g3, g4, g5⟩ := old t b ha hb hs _ hn (final_normal hn (by simp) rfl fun q1 t1 path1 e => by cases e; rw [hp]; simp)
        cases nb with
        | abstract q' u' =>
          cases g5 with
          | cons _ g6 =>
            cases g6 with
            | cons g7 _ =>
              obtain ⟨r, h3, h4⟩ := ih u' g7.1 g7.2.1 g7.2.2
              have h5 := ends_node he g2 (by simp) (by simp)
              rcases ho with ho | ho
              · obtain ⟨path', h6⟩ := ho _ _ _ h5
                exact ⟨r, lift_is he g1 (.unwrap h5 h6 h3), h4⟩
              · have : path2 = path := by
                  obtain ⟨m', h8, h9⟩ := he _ _ hp
                  rw [hq] at h8
                  cases h8
                  rcases h9 with h9 | ⟨k1, k2, v', h9, _⟩ | ⟨path, o, h9, h10⟩
                  · cases h9
                  · cases h9
                  · cases h9; cases h10; rfl
                subst this
                cases ho _ _ _ hp hq
        | _ => simp [label] at g4
    · cases h3
    · cases h3

/-- Types that are the same are the same at the end. -/
theorem same_at : (path : List Nat) → {a b : Ptr} → {l : Label} → a < h.length → b < h.length → SameType h [] a b → At H [] [] a path l → At H [] [] b path l
  | [], a, b, l, ha, hb, hs, hat => by
    cases hat with
    | root hi hn =>
      obtain ⟨q, h1, h2⟩ := same_is he hmm ho hi b ha hb hs
      rcases h2 with rfl | ⟨n, m, h3, h4, _, _, h5, _⟩
      · exact .root h1 hn
      · rw [hn] at h3; cases h3
        rw [h5]; exact .root h1 h4
  | i :: path, a, b, l, ha, hb, hs, hat => by
    cases hat with
    | child hi hn hc hat =>
      obtain ⟨q, h1, h2⟩ := same_is he hmm ho hi b ha hb hs
      rcases h2 with rfl | ⟨n, m, h3, h4, h5, h6, _, h7⟩
      · exact .child h1 hn hc hat
      · rw [hn] at h3; cases h3
        obtain ⟨hlt, hc'⟩ := List.getElem?_eq_some_iff.mp hc
        have hlt' : i < m.children.length := by rw [← h7.length_eq]; exact hlt
        have := h7.get i hlt hlt'
        rw [hc'] at this
        rw [h5] at hat
        refine .child h1 h4 (List.getElem?_eq_getElem hlt') ?_
        rw [h6]
        exact same_at path this.1 this.2.1 this.2.2 hat

theorem same_ends {a b : Ptr} (ha : a < h.length) (hb : b < h.length) (hs : SameType h [] a b) : SameType H [] a b :=
  fun path _ => ⟨same_at he hmm ho path ha hb hs, same_at he hmm ho path hb ha hs.symm⟩

end

/-! ### Types that are the same stand for the same kind of node -/

theorem sameType_refl {h : Heap} {a : Ptr} : SameType h [] a a := fun _ _ => Iff.rfl

theorem same_node {H : Heap} {a b : Ptr} {n : Node} (hs : SameType H [] a b) (hi : IsNode H a n) (hb : n.binders = []) :
    ∃ m, IsNode H b m ∧ (∃ p q, label H [] p n = label H [] q m) ∧
      (m.binders = [] → ∀ (i : Nat) c d, n.children[i]? = some c → m.children[i]? = some d → SameType H [] c d) := by
  obtain ⟨p, h1, h2⟩ := hi
  have h3 := (hs _ _).mp (.root h1 h2)
  generalize hl : label H [] p n = l at h3
  cases h3 with
  | @root _ _ q m h4 h5 =>
    refine ⟨m, ⟨q, h4, h5⟩, ⟨p, q, hl⟩, ?_⟩
    intro hmb i c d hc hd path l
    constructor
    · intro hat
      have := (hs (i :: path) l).mp (.child h1 h2 hc (by rw [hb]; exact hat))
      cases this with
      | child h6 h7 h8 h9 =>
        cases h6.unique h4
        rw [h5] at h7; cases h7
        rw [hd] at h8; cases h8
        rw [hmb] at h9; exact h9
    · intro hat
      have := (hs (i :: path) l).mpr (.child h4 h5 hd (by rw [hmb]; exact hat))
      cases this with
      | child h6 h7 h8 h9 =>
        cases h6.unique h1
        rw [h2] at h7; cases h7
        rw [hc] at h8; cases h8
        rw [hb] at h9; exact h9

theorem same_data {H : Heap} {a b : Ptr} {dt : DataKind} {fs : List (Name × Ptr)} (hs : SameType H [] a b) (hi : IsNode H a (.data dt fs)) :
    ∃ gs, IsNode H b (.data dt gs) ∧ All2 (fun f g => f.1 = g.1 ∧ SameType H [] f.2 g.2) fs gs := by
  obtain ⟨m, h1, ⟨p, q, h2⟩, h3⟩ := same_node hs hi rfl
  cases m with
  | data dt' gs =>
    simp only [label, Label.data.injEq] at h2
    obtain ⟨rfl, h2⟩ := h2
    have hl : fs.length = gs.length := by simpa using congrArg List.length h2
    refine ⟨gs, h1, All2.of_get hl fun i hi hj => ⟨?_, ?_⟩⟩
    · have := congrArg (·[i]?) h2
      simpa [List.getElem?_eq_getElem hi, List.getElem?_eq_getElem hj] using this
    · exact h3 rfl i _ _ (by simp [Node.children, List.getElem?_eq_getElem hi]) (by simp [Node.children, List.getElem?_eq_getElem hj])
  | var k v => simp only [label] at h2; split at h2 <;> cases h2
  | _ => simp [label] at h2

theorem same_func {H : Heap} {a b x y : Ptr} (hs : SameType H [] a b) (hi : IsNode H a (.func x y)) :
    ∃ x' y', IsNode H b (.func x' y') ∧ SameType H [] x x' ∧ SameType H [] y y' := by
  obtain ⟨m, h1, ⟨p, q, h2⟩, h3⟩ := same_node hs hi rfl
  cases m with
  | func x' y' => exact ⟨x', y', h1, h3 rfl 0 _ _ rfl rfl, h3 rfl 1 _ _ rfl rfl⟩
  | var k v => simp only [label] at h2; split at h2 <;> cases h2
  | _ => simp [label] at h2

theorem same_type {H : Heap} {a b x : Ptr} (hs : SameType H [] a b) (hi : IsNode H a (.type x)) : ∃ x', IsNode H b (.type x') := by
  obtain ⟨m, h1, ⟨p, q, h2⟩, h3⟩ := same_node hs hi rfl
  cases m with
  | type x' => exact ⟨x', h1⟩
  | var k v => simp only [label] at h2; split at h2 <;> cases h2
  | _ => simp [label] at h2

theorem IsNode.unique {H : Heap} {a : Ptr} {n m : Node} (h1 : IsNode H a n) (h2 : IsNode H a m) : n = m := by
  obtain ⟨p, h1, h3⟩ := h1
  obtain ⟨q, h2, h4⟩ := h2
  cases h1.unique h2
  rw [h3] at h4; cases h4; rfl

end Verif.Elab
