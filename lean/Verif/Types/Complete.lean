import Verif.Types.Equal
/-!
# Comparison of types: it ends, and it accepts types that are the same
-/
namespace Verif.Types

section
variable {h : Heap} {S : Ptr → Prop}

/-- The number of variables on the way from a type to its normal form. -/
inductive Chain (h : Heap) (p : Ptr) : Ptr → Nat → Prop where
  | here {n} : h[p]? = some n → (∀ k v, n ≠ .var k (some v)) → Chain h p p 0
  | value {t k v d} : h[t]? = some (.var k (some v)) → Chain h p v d → Chain h p t (d + 1)

theorem Chain.unique {p p' t d d'} (h1 : Chain h p t d) (h2 : Chain h p' t d') : d = d' := by
  induction h1 generalizing d' with
  | here hg hn =>
    cases h2 with
    | here => rfl
    | value hg' => rw [hg] at hg'; cases hg'; exact absurd rfl (hn _ _)
  | value hg _ ih =>
    cases h2 with
    | here hg' hn => rw [hg] at hg'; cases hg'; exact absurd rfl (hn _ _)
    | value hg' h2 => rw [hg] at hg'; cases hg'; rw [ih h2]

theorem Chain.normalTo {p t d} (hc : Chain h p t d) : NormalTo h p t := by
  induction hc with
  | here h1 h2 => exact .here h1 h2
  | value h1 _ ih => exact .value h1 ih

theorem Is.chain {σ : Vars} {q t} (hi : Is h σ q t) : ∃ p d, Chain h p t d := by
  induction hi with
  | here hf =>
    obtain ⟨n, hn⟩ := hf.node
    exact ⟨_, _, .here hn fun k v he => hf.noValue k v (he ▸ hn)⟩
  | value hg _ ih =>
    obtain ⟨p, d, hc⟩ := ih
    exact ⟨p, d + 1, .value hg hc⟩
  | inferred hg => exact ⟨_, _, .here hg (by simp)⟩
  | unwrap hg => exact ⟨_, _, .here hg (by simp)⟩

/-- Chains have bounded length. -/
theorem chain_bound {σ : Vars} (hm : Mono h σ S) : ∃ B, ∀ t, S t → ∃ p d, Chain h p t d ∧ d ≤ B := by
  have : ∀ m : Nat, ∃ B : Nat, ∀ t : Nat, t < m → S t → ∃ p d, Chain h p t d ∧ d ≤ B := by
    intro m
    induction m with
    | zero => exact ⟨0, fun t ht => by omega⟩
    | succ m ih =>
      obtain ⟨B, hB⟩ := ih
      by_cases hs : S m
      · obtain ⟨q, hq⟩ := hm.proper hs
        obtain ⟨p, d, hc⟩ := hq.chain
        refine ⟨B + d, fun t ht hst => ?_⟩
        by_cases htm : t = m
        · subst htm; exact ⟨p, d, hc, by omega⟩
        · obtain ⟨p', d', hc', hd'⟩ := hB t (by omega) hst
          exact ⟨p', d', hc', by omega⟩
      · refine ⟨B, fun t ht hst => ?_⟩
        exact hB t (by have : t ≠ m := fun he => hs (he ▸ hst); omega) hst
  obtain ⟨B, hB⟩ := this h.length
  refine ⟨B, fun t ht => hB t ?_ ht⟩
  obtain ⟨n, hn⟩ := hm.node ht
  rw [List.getElem?_eq_some_iff] at hn
  exact hn.1

theorem normal_of_chain (hm : Mono0 h S) {p t d} (hc : Chain h p t d) (ht : S t) (n : Nat) (hn : d < n) (N : List Ptr)
    (hN : ∀ x ∈ N, ∃ q e, Chain h q x e ∧ d < e) : normal n N h t = .ok (h, some p) := by
  induction hc generalizing n N with
  | @here nd h1 h2 =>
    obtain ⟨n, rfl⟩ : ∃ m, n = m + 1 := ⟨n - 1, by omega⟩
    have hnot : N.contains p = false := by
      rw [Bool.eq_false_iff]
      intro hc
      obtain ⟨q, e, h3, h4⟩ := hN p (by simpa using hc)
      have := (Chain.here h1 h2).unique h3
      omega
    rw [normal, hnot]
    simp only [get, h1]
    cases nd with
    | poly => exact absurd h1 (hm.noPoly ht)
    | polyApply => exact absurd h1 (hm.noApply ht)
    | var k v =>
      cases v with
      | none => rfl
      | some v => exact absurd rfl (h2 k v)
    | _ => rfl
  | @value t k v d h1 hc ih =>
    obtain ⟨n, rfl⟩ : ∃ m, n = m + 1 := ⟨n - 1, by omega⟩
    have hself := Chain.value h1 hc
    have hnot : N.contains t = false := by
      rw [Bool.eq_false_iff]
      intro hc
      obtain ⟨q, e, h3, h4⟩ := hN t (by simpa using hc)
      have := hself.unique h3
      omega
    rw [normal, hnot]
    simp only [get, h1]
    refine ih (hm.value ht h1) n (by omega) _ fun x hx => ?_
    rw [List.mem_cons] at hx
    rcases hx with rfl | hx
    · exact ⟨p, d + 1, hself, by omega⟩
    · obtain ⟨q, e, h3, h4⟩ := hN x hx
      exact ⟨q, e, h3, by omega⟩

theorem normalType_of_chain (hm : Mono0 h S) {p t d} (hc : Chain h p t d) (ht : S t) (n : Nat) (hn : d < n) : normalType n h t = .ok (h, p) := by
  rw [normalType, normal_of_chain hm hc ht n hn [] (by simp)]
  rfl

/-! ### Counting the pairs that are not yet assumed -/

def pairs (L : Nat) : List (Ptr × Ptr) := (List.range L).flatMap fun x => (List.range L).map fun y => (x, y)

theorem mem_pairs {L x y} : (x, y) ∈ pairs L ↔ x < L ∧ y < L := by
  simp [pairs]

def open_ (L : Nat) (eq : List (Ptr × Ptr)) : Nat := (pairs L).countP fun p => !eq.contains p

theorem countP_lt {α : Type} {p q : α → Bool} {l : List α} {x : α} (hx : x ∈ l) (hpq : ∀ y, p y = true → q y = true) (hp : p x = false) (hq : q x = true) :
    l.countP p < l.countP q := by
  induction l with
  | nil => cases hx
  | cons y l ih =>
    have hle : l.countP p ≤ l.countP q := List.countP_mono_left fun y _ => hpq y
    rw [List.countP_cons, List.countP_cons]
    rcases List.mem_cons.mp hx with rfl | hx
    · rw [hp, hq]; simp; omega
    · have := ih hx
      by_cases hy : p y = true
      · rw [hy, hpq y hy]; omega
      · rw [Bool.not_eq_true] at hy; rw [hy]; simp; omega

theorem open_lt {L eq x y} (hx : x < L) (hy : y < L) (hne : eq.contains (x, y) = false) : open_ L ((x, y) :: eq) < open_ L eq := by
  refine countP_lt (mem_pairs.mpr ⟨hx, hy⟩) ?_ (by simp) (by simp at hne ⊢; exact hne)
  intro z hz
  simp at hz ⊢
  exact hz.2

/-! ### Types that are the same have the same children -/

theorem sameType_final {σ : Vars} (hm : Mono h σ S) {a b na nb} (ha : S a) (hb : S b) (hfa : Final h σ a) (hfb : Final h σ b) (hna : h[a]? = some na) (hnb : h[b]? = some nb)
    (hs : SameType h σ a b) : label h [] a na = label h [] b nb ∧ All2 (SameType h σ) na.children nb.children := by
  have hba := binders_nil hm.mono0 ha hna
  have hbb := binders_nil hm.mono0 hb hnb
  have h1 := fun path l => (at_final (ρ := []) (path := path) (l := l) hfa hna).symm.trans ((hs path l).trans (at_final hfb hnb))
  rw [hba, hbb] at h1
  have hlab : label h [] a na = label h [] b nb := by
    rcases (h1 [] (label h [] a na)).mp (.inl ⟨rfl, rfl⟩) with h2 | ⟨_, _, _, h2, _⟩
    · exact h2.2
    · cases h2
  have some_at : ∀ c, S c → ∃ l, At h σ [] c [] l := by
    intro c hc
    obtain ⟨p, hp⟩ := hm.proper hc
    have : ∃ n, h[p]? = some n := by
      clear h1
      induction hp with
      | here hf => exact hf.node
      | value hg _ ih => exact ih (hm.value hc hg)
      | inferred _ hi _ ih => exact ih (hm.inferred hc hi).1
      | unwrap hg _ _ ih => exact ih (hm.child hc hg (by simp [Node.children]))
    obtain ⟨n, hn⟩ := this
    exact ⟨_, .root hp hn⟩
  have step : ∀ (i : Nat) c d, na.children[i]? = some c → nb.children[i]? = some d → SameType h σ c d := by
    intro i c d hc hd path l
    constructor
    · intro hx
      rcases (h1 (i :: path) l).mp (.inr ⟨i, c, path, rfl, hc, hx⟩) with ⟨h2, _⟩ | ⟨j, d', p', h2, h3, h4⟩
      · cases h2
      · cases h2; rw [hd] at h3; cases h3; exact h4
    · intro hx
      rcases (h1 (i :: path) l).mpr (.inr ⟨i, d, path, rfl, hd, hx⟩) with ⟨h2, _⟩ | ⟨j, d', p', h2, h3, h4⟩
      · cases h2
      · cases h2; rw [hc] at h3; cases h3; exact h4
  refine ⟨hlab, ?_⟩
  have hex1 : ∀ (i : Nat), i < na.children.length → i < nb.children.length := by
    intro i hi
    obtain ⟨l, hl⟩ := some_at _ (hm.child ha hna (List.getElem_mem hi))
    rcases (h1 [i] l).mp (.inr ⟨i, _, [], rfl, List.getElem?_eq_getElem hi, hl⟩) with ⟨h2, _⟩ | ⟨j, d, p', h2, h3, _⟩
    · cases h2
    · cases h2; rw [List.getElem?_eq_some_iff] at h3; exact h3.1
  have hex2 : ∀ (i : Nat), i < nb.children.length → i < na.children.length := by
    intro i hi
    obtain ⟨l, hl⟩ := some_at _ (hm.child hb hnb (List.getElem_mem hi))
    rcases (h1 [i] l).mpr (.inr ⟨i, _, [], rfl, List.getElem?_eq_getElem hi, hl⟩) with ⟨h2, _⟩ | ⟨j, d, p', h2, h3, _⟩
    · cases h2
    · cases h2; rw [List.getElem?_eq_some_iff] at h3; exact h3.1
  have hlen : na.children.length = nb.children.length := by
    rcases Nat.lt_trichotomy na.children.length nb.children.length with h2 | h2 | h2
    · have := hex2 _ h2; omega
    · exact h2
    · have := hex1 _ h2; omega
  refine All2.of_get hlen fun i hi hj => ?_
  exact step i _ _ (List.getElem?_eq_getElem hi) (List.getElem?_eq_getElem hj)

/-! ### The comparison ends -/

/-- The types found so far agree with `σ`. -/
def Fits (h : Heap) (σ vars : Vars) : Prop := ∀ v t, assigned vars v = some t → SameType h σ v t

/-- The variables to be found are `K`, what has been found is in `T`. -/
def Inv (K : List Ptr) (T : Ptr → Prop) (vars : Vars) : Prop := vars.map (·.1) = K ∧ ∀ v t, assigned vars v = some t → T t

/-- The comparison gives an answer, and accepts if `P` holds and `σ` is possible. -/
def Answers (h : Heap) (K : List Ptr) (T : Ptr → Prop) (σ vars : Vars) (P : Prop) (x : EqRes) : Prop :=
  ∃ vars' r, x = .ok (h, vars', r) ∧ Inv K T vars' ∧ (Fits h σ vars → P → r = true ∧ Fits h σ vars')

section
variable {T : Ptr → Prop} {K : List Ptr} {σ : Vars}

theorem Answers.and {P Q : Prop} {vars} {x : EqRes} {y : Heap → Vars → EqRes} (hx : Answers h K T σ vars P x)
    (hy : ∀ vars', Inv K T vars' → Answers h K T σ vars' Q (y h vars')) : Answers h K T σ vars (P ∧ Q) (andEq x y) := by
  obtain ⟨v1, r, h1, hi, h2⟩ := hx
  obtain ⟨v2, s, h3, hi', h4⟩ := hy v1 hi
  rw [andEq, h1]
  cases r with
  | true => exact ⟨v2, s, h3, hi', fun hf hp => h4 (h2 hf hp.1).2 hp.2⟩
  | false => exact ⟨v1, false, rfl, hi, fun hf hp => h2 hf hp.1⟩

theorem Answers.imp {P Q : Prop} {vars} {x : EqRes} (hx : Answers h K T σ vars P x) (hq : Q → P) : Answers h K T σ vars Q x := by
  obtain ⟨v1, r, h1, hi, h2⟩ := hx
  exact ⟨v1, r, h1, hi, fun hf q => h2 hf (hq q)⟩

theorem answers_ok {P : Prop} {vars} {b : Bool} (hi : Inv K T vars) (hb : P → b = true) : Answers h K T σ vars P (.ok (h, vars, b)) :=
  ⟨vars, b, rfl, hi, fun hf hp => ⟨hb hp, hf⟩⟩

theorem fieldsEqual_answers {f : Heap → Vars → Ptr → Ptr → EqRes} {G : Prop} (fa fb : List (Name × Ptr)) (vars : Vars) (hv : Inv K T vars)
    (hf : ∀ a ∈ fa.map (·.2), ∀ b ∈ fb.map (·.2), ∀ vars, Inv K T vars → Answers h K T σ vars (G ∧ SameType h σ a b) (f h vars a b)) :
    Answers h K T σ vars (G ∧ fa.map (·.1) = fb.map (·.1) ∧ All2 (SameType h σ) (fa.map (·.2)) (fb.map (·.2))) (fieldsEqual f h vars fa fb) := by
  induction fa generalizing fb vars with
  | nil => rw [fieldsEqual.eq_def]; exact answers_ok hv fun _ => rfl
  | cons x fa ih =>
    cases fb with
    | nil => rw [fieldsEqual.eq_def]; exact answers_ok hv fun _ => rfl
    | cons y fb =>
      obtain ⟨x, a⟩ := x
      obtain ⟨y, b⟩ := y
      rw [fieldsEqual]
      split
      · next hn =>
        refine answers_ok hv fun hp => ?_
        simp at hp
        simp [namesEqual, hp.2.1.1] at hn
      · have h1 := hf a (by simp) b (by simp) vars hv
        refine (h1.and (y := fun h vars => fieldsEqual f h vars fa fb) fun vars' hv' =>
          ih fb vars' hv' fun c hc d hd => hf c (by rw [List.map_cons]; exact List.mem_cons_of_mem _ hc) d (by rw [List.map_cons]; exact List.mem_cons_of_mem _ hd)).imp ?_
        rintro ⟨hg, h3, h4⟩
        simp at h3
        cases h4 with
        | cons h5 h6 => exact ⟨⟨hg, h5⟩, hg, h3.2, h6⟩

theorem sameTag_answers (n : Nat) {rec : List (Ptr × Ptr) → Heap → Vars → Ptr → Ptr → EqRes} (hS : Mono0 h S) (hT : Mono0 h T) (hTS : ∀ t, T t → S t) (eq : List (Ptr × Ptr))
    (hrec : ∀ c d vars, S c → T d → Inv K T vars → Answers h K T σ vars (Mono h σ S ∧ SameType h σ c d) (rec eq h vars c d)) {a b : Ptr} {na nb : Node} (ha : S a) (hb : T b)
    (hna : h[a]? = some na) (hnb : h[b]? = some nb) (hfa : Final h σ a) (hfb : Final h σ b) (vars : Vars) (hv : Inv K T vars) :
    Answers h K T σ vars (Mono h σ S ∧ SameType h σ a b) (sameTag n rec eq h vars a b na nb) := by
  have ca : ∀ c ∈ na.children, S c := fun c hc => hS.child ha hna hc
  have cb : ∀ c ∈ nb.children, T c := fun c hc => hT.child hb hnb hc
  have hs := fun hm : Mono h σ S => sameType_final hm ha (hTS _ hb) hfa hfb hna hnb
  have two : ∀ a1 a2 b1 b2, S a1 → S a2 → T b1 → T b2 →
      Answers h K T σ vars (Mono h σ S ∧ All2 (SameType h σ) [a1, a2] [b1, b2]) (andEq (rec eq h vars a1 b1) fun h vars => rec eq h vars a2 b2) := by
    intro a1 a2 b1 b2 ha1 ha2 hb1 hb2
    refine ((hrec a1 b1 vars ha1 hb1 hv).and (y := fun h vars => rec eq h vars a2 b2) fun vars' hv' => hrec a2 b2 vars' ha2 hb2 hv').imp ?_
    rintro ⟨hg, h4⟩
    cases h4 with
    | cons h5 h6 => cases h6 with
      | cons h7 h8 => exact ⟨⟨hg, h5⟩, hg, h7⟩
  unfold sameTag
  split
  · split
    · next hd =>
      refine answers_ok hv fun hp => ?_
      obtain ⟨h1, h2⟩ := hs hp.1 hp.2
      have := h2.length_eq
      simp [label, Node.children] at h1 this
      rcases hd with hd | hd
      · exact absurd h1.1 hd
      · exact absurd this hd
    · refine (fieldsEqual_answers (G := Mono h σ S) _ _ vars hv fun c hc d hd vars hv => hrec c d vars (ca c hc) (cb d hd) hv).imp fun hp => ?_
      obtain ⟨h1, h2⟩ := hs hp.1 hp.2
      simp only [label, Label.data.injEq] at h1
      exact ⟨hp.1, h1.2, h2⟩
  · refine (two _ _ _ _ (ca _ ?_) (ca _ ?_) (cb _ ?_) (cb _ ?_)).imp fun hp => ⟨hp.1, (hs hp.1 hp.2).2⟩ <;> simp [Node.children]
  · exact absurd hna (hS.noPoly ha)
  · exact absurd hna (hS.noApply ha)
  · refine answers_ok hv fun hp => ?_
    have := (hs hp.1 hp.2).1
    simpa [label] using this
  · refine (two _ _ _ _ (ca _ ?_) (ca _ ?_) (cb _ ?_) (cb _ ?_)).imp fun hp => ⟨hp.1, (hs hp.1 hp.2).2⟩ <;> simp [Node.children]
  · next ka va kb vb =>
    have h1 : va = none := by
      cases va with
      | none => rfl
      | some v => exact absurd hna (hfa.noValue _ _)
    have h2 : vb = none := by
      cases vb with
      | none => rfl
      | some v => exact absurd hnb (hfb.noValue _ _)
    rw [if_pos ⟨h1, h2⟩]
    refine answers_ok hv fun hp => ?_
    have := (hs hp.1 hp.2).1
    simpa [label] using this
  · next t u =>
    refine (hrec t u vars (ca _ (by simp [Node.children])) (cb _ (by simp [Node.children])) hv).imp fun hp => ⟨hp.1, ?_⟩
    cases (hs hp.1 hp.2).2 with
    | cons h5 => exact h5
  · next hx1 hx2 hx3 hx4 hx5 hx6 hx7 hx8 =>
    refine answers_ok hv fun hp => ?_
    have := (hs hp.1 hp.2).1
    clear hx3 hx4
    cases na <;> cases nb <;> simp [label] at this
    · exact absurd rfl (hx1 _ _ _ _ rfl)
    · exact absurd rfl (hx2 _ _ _ _ rfl)
    · exact absurd hna (hS.noPoly ha)
    · exact absurd hna (hS.noApply ha)
    · exact absurd rfl (hx5 _ _ _ _ rfl)
    · exact absurd rfl (hx6 _ _ _ _ rfl)
    · exact absurd rfl (hx7 _ _ _ _ rfl)
    · exact absurd rfl (hx8 _ _ rfl)

theorem sameType_left {a a' b} (hi : ∀ p, Is h σ p a ↔ Is h σ p a') (hs : SameType h σ a b) : SameType h σ a' b :=
  fun path l => (Is.at hi [] path l).symm.trans (hs path l)

theorem sameType_right {a b b'} (hi : ∀ p, Is h σ p b ↔ Is h σ p b') (hs : SameType h σ a b) : SameType h σ a b' :=
  fun path l => (hs path l).trans (Is.at hi [] path l)

theorem SameType.symm {a b} (hs : SameType h σ a b) : SameType h σ b a := fun path l => (hs path l).symm

theorem SameType.trans {a b c} (hs : SameType h σ a b) (hs' : SameType h σ b c) : SameType h σ a c := fun path l => (hs path l).trans (hs' path l)

theorem final_normal {a na} (hna : h[a]? = some na) (hv : ∀ k v, na ≠ .var k (some v)) (hσ : assigned σ a = none)
    (ho : ∀ q t path, na = .abstract q t → h[q]? ≠ some (.package path false)) : Final h σ a where
  node := ⟨_, hna⟩
  noValue k v hc := by rw [hna] at hc; cases hc; exact hv _ _ rfl
  notInferred k hc := hσ
  opaq q t path hc := by rw [hna] at hc; cases hc; exact ho _ _ _ rfl

theorem lt_of_mem (hm : Mono0 h S) {t} (ht : S t) : t < h.length := by
  obtain ⟨n, hn⟩ := hm.node ht
  rw [List.getElem?_eq_some_iff] at hn
  exact hn.1

theorem compareNormal_answers (n : Nat) {rec : List (Ptr × Ptr) → Heap → Vars → Ptr → Ptr → EqRes} (hS : Mono0 h S) (hT : Mono0 h T) (hTS : ∀ t, T t → S t)
    (eq : List (Ptr × Ptr)) {a b : Ptr} {na nb : Node}
    (hrec : ∀ c d vars, S c → T d → Inv K T vars → Answers h K T σ vars (Mono h σ S ∧ SameType h σ c d) (rec ((a, b) :: eq) h vars c d)) (ha : S a) (hb : T b)
    (hna : h[a]? = some na) (hnb : h[b]? = some nb) (hva : ∀ k v, na ≠ .var k (some v)) (hvb : ∀ k v, nb ≠ .var k (some v)) (hσa : assigned σ a = none) (hσb : assigned σ b = none)
    (vars : Vars) (hv : Inv K T vars) :
    Answers h K T σ vars (Mono h σ S ∧ SameType h σ a b) (compareNormal n rec eq h vars a b) := by
  have tr : ∀ q path o, h[q]? = some (.package path o) → transparent h q = .ok (!o) := by
    intro q path o hq
    simp only [transparent, get, hq]
    rfl
  have tagged : (∀ q t path, na = .abstract q t → h[q]? ≠ some (.package path false)) → (∀ q t path, nb = .abstract q t → h[q]? ≠ some (.package path false)) →
      Answers h K T σ vars (Mono h σ S ∧ SameType h σ a b) (sameTag n rec ((a, b) :: eq) h vars a b na nb) := fun hoa hob =>
    sameTag_answers n hS hT hTS _ hrec ha hb hna hnb (final_normal hna hva hσa hoa) (final_normal hnb hvb hσb hob) vars hv
  have right : (∀ q t path, na = .abstract q t → h[q]? ≠ some (.package path false)) → Answers h K T σ vars (Mono h σ S ∧ SameType h σ a b)
      (match (generalizing := false) nb with
        | .abstract q u => do if ← transparent h q then rec ((a, b) :: eq) h vars a u else sameTag n rec ((a, b) :: eq) h vars a b na nb
        | _ => sameTag n rec ((a, b) :: eq) h vars a b na nb) := by
    intro hoa
    cases nb with
    | abstract q u =>
      obtain ⟨path, o, hq⟩ := hT.package hb hnb
      dsimp only
      rw [tr q path o hq]
      cases o with
      | false =>
        exact (hrec a u vars ha (hT.child hb hnb (by simp [Node.children])) hv).imp fun hp => ⟨hp.1, sameType_right (is_unwrap hnb hq) hp.2⟩
      | true =>
        refine tagged hoa ?_
        intro q' t' path' he'; cases he'; rw [hq]; simp
    | _ => exact tagged hoa (by simp)
  unfold compareNormal
  simp only [get, hna, hnb]
  cases na with
  | abstract q t =>
    obtain ⟨path, o, hq⟩ := hS.package ha hna
    show Answers h K T σ vars (Mono h σ S ∧ SameType h σ a b) (do if ← transparent h q then _ else _)
    rw [tr q path o hq]
    cases o with
    | false =>
      exact (hrec t b vars (hS.child ha hna (by simp [Node.children])) hb hv).imp fun hp => ⟨hp.1, sameType_left (is_unwrap hna hq) hp.2⟩
    | true =>
      refine right ?_
      intro q' t' path' he'; cases he'; rw [hq]; simp
  | _ => exact right (by simp)

theorem findIdx_none {vars : Vars} {a : Ptr} : vars.findIdx? (fun v => v.1 = a) = none ↔ a ∉ vars.map (·.1) := by
  rw [List.findIdx?_eq_none_iff]
  simp only [decide_eq_false_iff_not, List.mem_map, not_exists, not_and]

theorem typesEqual_answers (hS : Mono0 h S) (hT : Mono0 h T) (hTS : ∀ t, T t → S t) {B : Nat} (hB : ∀ t, S t → ∃ p d, Chain h p t d ∧ d ≤ B)
    (hK : ∀ v ∈ K, ¬ T v) (hσ : ∀ v t, assigned σ v = some t → v ∈ K)
    (m : Nat) (eq : List (Ptr × Ptr)) (ho : open_ h.length eq ≤ m)
    (n : Nat) (hn : m + B + 2 ≤ n) (a b : Ptr) (ha : S a) (hb : T b) (vars : Vars) (hv : Inv K T vars) :
    Answers h K T σ vars (Mono h σ S ∧ SameType h σ a b) (typesEqual n eq h vars a b) := by
  induction m using Nat.strongRecOn generalizing eq n a b vars with
  | ind m ih =>
    obtain ⟨n, rfl⟩ : ∃ k, n = k + 1 := ⟨n - 1, by omega⟩
    obtain ⟨p, d, hp, hd⟩ := hB a ha
    obtain ⟨q, e, hq, he⟩ := hB b (hTS _ hb)
    have hsp := hp.normalTo.mem hS ha
    have htq := hq.normalTo.mem hT hb
    have hnb := normalType_of_chain hT hq hb n (by omega)
    have hσT : ∀ t, T t → assigned σ t = none := by
      intro t ht
      cases hx : assigned σ t with
      | none => rfl
      | some v => exact absurd ht (hK t (hσ t v hx))
    rw [typesEqual, normalType_of_chain hS hp ha n (by omega)]
    show Answers h K T σ vars _ (do
      match ← infer n h vars p b with
      | .done vars => return (h, vars, true)
      | .go h a =>
        let (h, b) ← normalType n h b
        if eq.contains (a, b) then return (h, vars, true)
        else compareNormal n (typesEqual n) eq h vars a b)
    have rest : ∀ a2, S a2 → assigned σ a2 = none → (∃ na, h[a2]? = some na ∧ ∀ k v, na ≠ .var k (some v)) →
        (Fits h σ vars → SameType h σ a b → SameType h σ a2 b) → Answers h K T σ vars (Mono h σ S ∧ SameType h σ a b) (do
          let (h, b) ← normalType n h b
          if eq.contains (a2, b) then return (h, vars, true) else compareNormal n (typesEqual n) eq h vars a2 b) := by
      intro a2 ha2 hσ2 hn2 hsame
      rw [hnb]
      show Answers h K T σ vars _ (if eq.contains (a2, q) then .ok (h, vars, true) else compareNormal n (typesEqual n) eq h vars a2 q)
      cases hc : eq.contains (a2, q) with
      | true => exact answers_ok hv fun _ => rfl
      | false =>
        have hlt := open_lt (lt_of_mem hS ha2) (lt_of_mem hT htq) hc
        obtain ⟨np, h1, h2⟩ := hn2
        obtain ⟨nq, h3, h4⟩ := hq.normalTo.node
        obtain ⟨v', r, h5, h6, h7⟩ := compareNormal_answers (σ := σ) n hS hT hTS eq (fun c d vars hc hd hv => ih (open_ h.length ((a2, q) :: eq)) (by omega) _ (Nat.le_refl _) n (by omega) c d hc hd vars hv)
          ha2 htq h1 h3 h2 h4 hσ2 (hσT _ htq) vars hv
        exact ⟨v', r, h5, h6, fun hf hp => h7 hf ⟨hp.1, sameType_right hq.normalTo.is (hsame hf hp.2)⟩⟩
    cases hi : vars.findIdx? (fun v => v.1 = p) with
    | none =>
      have hpK : p ∉ K := by rw [← hv.1]; exact findIdx_none.mp hi
      have hin : infer n h vars p b = .ok (.go h p) := by rw [infer, hi]
      rw [hin]
      refine rest p hsp ?_ hp.normalTo.node fun _ hs => sameType_left hp.normalTo.is hs
      cases hx : assigned σ p with
      | none => rfl
      | some v => exact absurd (hσ p v hx) hpK
    | some i =>
      obtain ⟨o, h1, h2, h3⟩ := find_of_findIdx hi
      cases o with
      | none =>
        have hin : infer n h vars p b = .ok (.done (vars.set i (p, some b))) := by rw [infer, hi]; simp only [h1]
        obtain ⟨v2, h4, _, _, h5⟩ | h4 | ⟨_, _, _, h4, _⟩ := infer_inv hin
        · cases h4
          rw [hin]
          refine ⟨_, true, rfl, ⟨h5.trans hv.1, fun v t hvt => ?_⟩, fun hf hp' => ⟨rfl, fun v t hvt => ?_⟩⟩
          · rw [h3] at hvt
            split at hvt
            · cases hvt; exact hb
            · exact hv.2 v t hvt
          · rw [h3] at hvt
            split at hvt
            · next hvp => cases hvt; subst hvp; exact sameType_left hp.normalTo.is hp'.2
            · exact hf v t hvt
        · cases h4
        · cases h4
      | some t =>
        have ht : T t := hv.2 p t h2
        obtain ⟨u, e', hu, he'⟩ := hB t (hTS _ ht)
        have hin : infer n h vars p b = .ok (.go h u) := by
          rw [infer, hi]
          simp only [h1]
          rw [normalType_of_chain hT hu ht n (by omega)]
          rfl
        have htu := hu.normalTo.mem hT ht
        rw [hin]
        refine rest u (hTS _ htu) (hσT _ htu) hu.normalTo.node fun hf hs => ?_
        have h4 : SameType h σ p t := hf p t h2
        exact sameType_left hu.normalTo.is (h4.symm.trans (sameType_left hp.normalTo.is hs))

end

/-- The comparison of types that are not polymorphic ends, and accepts exactly the types that are
the same. -/
theorem typesEqual_correct (hm : Mono h [] S) {a b : Ptr} (ha : S a) (hb : S b) :
    ∃ N, ∀ n ≥ N, ∃ r, fbleTypesEqual n h a b = .ok r ∧ (r = true ↔ SameType h [] a b) := by
  obtain ⟨B, hB⟩ := chain_bound hm
  refine ⟨open_ h.length [] + B + 2, fun n hn => ?_⟩
  obtain ⟨v, r, h1, hi, h2⟩ := typesEqual_answers (σ := []) (K := []) hm.mono0 hm.mono0 (fun _ ht => ht) hB (by simp) (by simp [assigned]) _ [] (Nat.le_refl _) n hn a b ha hb [] ⟨rfl, by simp [assigned]⟩
  have hv : v = [] := by simpa using hi.1
  subst hv
  refine ⟨r, by rw [fbleTypesEqual, h1]; rfl, fun hr => ?_, fun hs => (h2 (by intro v t hvt; simp [assigned] at hvt) ⟨hm, hs⟩).1⟩
  subst hr
  rw [sameType_iff]
  intro k
  refine (typesEqual_sound hm.mono0 hm.mono0 (fun _ ht => ht) n [] [] a b h [] ha hb (by simp [assigned]) h1 [] hm (Extends.refl _) k ?_).le (by omega)
  intro x y hxy; cases hxy

end
end Verif.Types
