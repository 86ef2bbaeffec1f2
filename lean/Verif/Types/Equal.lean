import Verif.Types.Sound
/-!
# Comparison of types: soundness, continued
-/
namespace Verif.Types

theorem infer_inv {n : Nat} {h : Heap} {vars : Vars} {a b : Ptr} {r : Infer} (hr : infer n h vars a b = .ok r) :
    (∃ vars', r = .done vars' ∧ assigned vars a = none ∧ (∀ p, assigned vars' p = if p = a then some b else assigned vars p) ∧ vars'.map (·.1) = vars.map (·.1)) ∨
    r = .go h a ∨ ∃ t h' a', r = .go h' a' ∧ assigned vars a = some t ∧ normalType n h t = .ok (h', a') := by
  unfold infer at hr
  cases hi : vars.findIdx? (fun v => v.1 = a) with
  | none => rw [hi] at hr; cases hr; exact .inr (.inl rfl)
  | some i =>
    rw [hi] at hr
    obtain ⟨o, h1, h2, h3⟩ := find_of_findIdx hi
    dsimp only at hr
    rw [h1] at hr
    cases o with
    | none =>
      cases hr
      refine .inl ⟨_, rfl, h2, h3 b, ?_⟩
      rw [List.map_set]
      refine List.ext_getElem? fun j => ?_
      rw [List.getElem?_set]
      by_cases hj : i = j
      · subst hj
        rw [List.getElem?_eq_some_iff] at h1
        obtain ⟨h4, h5⟩ := h1
        simp [h4, h5]
      · rw [if_neg hj]
    | some t =>
      dsimp only at hr
      rw [R.bind_eq_ok] at hr
      obtain ⟨⟨h', a'⟩, h4, h5⟩ := hr
      cases h5
      exact .inr (.inr ⟨t, h', a', rfl, h2, h4⟩)

/-- The comparison leaves the heap alone and only infers types from `T`. -/
def Keeps (h : Heap) (T : Ptr → Prop) (vars : Vars) (x : EqRes) : Prop :=
  ∀ h' vars' r, x = .ok (h', vars', r) → h' = h ∧ Extends vars vars' ∧ (∀ v t, assigned vars' v = some t → T t) ∧ vars'.map (·.1) = vars.map (·.1)

section
variable {h : Heap} {S T : Ptr → Prop}

theorem Keeps.ok {vars : Vars} (hv : ∀ v t, assigned vars v = some t → T t) (r : Bool) : Keeps h T vars (.ok (h, vars, r)) := by
  intro h' vars' r' he
  cases he
  exact ⟨rfl, Extends.refl _, hv, rfl⟩

theorem Keeps.fail {vars : Vars} : Keeps h T vars .fail := by
  intro h' vars' r' he; cases he

theorem Keeps.and {vars : Vars} {x : EqRes} {y : Heap → Vars → EqRes} (hx : Keeps h T vars x)
    (hy : ∀ vars', (∀ v t, assigned vars' v = some t → T t) → Keeps h T vars' (y h vars')) : Keeps h T vars (andEq x y) := by
  intro h' vars' r he
  rw [andEq, R.bind_eq_ok] at he
  obtain ⟨⟨h1, v1, b⟩, h2, h3⟩ := he
  obtain ⟨rfl, h4, h5, hk⟩ := hx _ _ _ h2
  dsimp only at h3
  split at h3
  · obtain ⟨h6, h7, h8, hk'⟩ := hy v1 h5 _ _ _ h3
    exact ⟨h6, h4.trans h7, h8, hk'.trans hk⟩
  · cases h3; exact ⟨rfl, h4, h5, hk⟩

theorem Keeps.bind {α : Type} {vars : Vars} {x : R α} {f : α → EqRes} (hf : ∀ a, x = .ok a → Keeps h T vars (f a)) : Keeps h T vars (x >>= f) := by
  intro h' vars' r he
  rw [R.bind_eq_ok] at he
  obtain ⟨a, h1, h2⟩ := he
  exact hf a h1 _ _ _ h2

/-- What is known about the recursive calls. -/
def RecKeeps (h : Heap) (S T : Ptr → Prop) (rec : List (Ptr × Ptr) → Heap → Vars → Ptr → Ptr → EqRes) : Prop :=
  ∀ eq vars a b, S a → T b → (∀ v t, assigned vars v = some t → T t) → Keeps h T vars (rec eq h vars a b)

theorem fieldsEqual_keeps {rec : List (Ptr × Ptr) → Heap → Vars → Ptr → Ptr → EqRes} (hrec : RecKeeps h S T rec) (eq : List (Ptr × Ptr))
    (fa fb : List (Name × Ptr)) (ha : ∀ c ∈ fa.map (·.2), S c) (hb : ∀ c ∈ fb.map (·.2), T c) (vars : Vars) (hv : ∀ v t, assigned vars v = some t → T t) :
    Keeps h T vars (fieldsEqual (rec eq) h vars fa fb) := by
  induction fa generalizing fb vars with
  | nil => rw [fieldsEqual.eq_def]; exact Keeps.ok hv _
  | cons x fa ih =>
    cases fb with
    | nil => rw [fieldsEqual.eq_def]; exact Keeps.ok hv _
    | cons y fb =>
      rw [fieldsEqual]
      split
      · exact Keeps.ok hv _
      · refine Keeps.and (hrec _ _ _ _ (ha _ (by simp)) (hb _ (by simp)) hv) fun vars' hv' => ?_
        exact ih fb (fun c hc => ha c (by simp at hc ⊢; exact .inr hc)) (fun c hc => hb c (by simp at hc ⊢; exact .inr hc)) vars' hv'

theorem sameTag_keeps (n : Nat) {rec : List (Ptr × Ptr) → Heap → Vars → Ptr → Ptr → EqRes} (hrec : RecKeeps h S T rec) (hS : Mono0 h S) (hT : Mono0 h T)
    (eq : List (Ptr × Ptr)) {a b : Ptr} {na nb : Node} (ha : S a) (hb : T b) (hna : h[a]? = some na) (hnb : h[b]? = some nb) (vars : Vars)
    (hv : ∀ v t, assigned vars v = some t → T t) : Keeps h T vars (sameTag n rec eq h vars a b na nb) := by
  have ca : ∀ c ∈ na.children, S c := fun c hc => hS.child ha hna hc
  have cb : ∀ c ∈ nb.children, T c := fun c hc => hT.child hb hnb hc
  unfold sameTag
  split
  · split
    · exact Keeps.ok hv _
    · exact fieldsEqual_keeps hrec _ _ _ ca cb _ hv
  · exact Keeps.and (hrec _ _ _ _ (ca _ (by simp [Node.children])) (cb _ (by simp [Node.children])) hv) fun vars' hv' => hrec _ _ _ _ (ca _ (by simp [Node.children])) (cb _ (by simp [Node.children])) hv'
  · exact absurd hna (hS.noPoly ha)
  · exact absurd hna (hS.noApply ha)
  · exact Keeps.ok hv _
  · exact Keeps.and (hrec _ _ _ _ (ca _ (by simp [Node.children])) (cb _ (by simp [Node.children])) hv) fun vars' hv' => hrec _ _ _ _ (ca _ (by simp [Node.children])) (cb _ (by simp [Node.children])) hv'
  · split
    · exact Keeps.ok hv _
    · exact Keeps.fail
  · exact hrec _ _ _ _ (ca _ (by simp [Node.children])) (cb _ (by simp [Node.children])) hv
  · exact Keeps.ok hv _

theorem transparent_inv {q : Ptr} {b : Bool} (ht : transparent h q = .ok b) : ∃ path, h[q]? = some (.package path (!b)) := by
  rw [transparent, R.bind_eq_ok] at ht
  obtain ⟨n, h1, h2⟩ := ht
  rw [get_ok] at h1
  cases n with
  | package path o => cases h2; exact ⟨path, by simpa using h1⟩
  | _ => cases h2

/-- The ways in which two normal forms are compared. -/
inductive Way (n : Nat) (rec : List (Ptr × Ptr) → Heap → Vars → Ptr → Ptr → EqRes) (eq : List (Ptr × Ptr)) (h : Heap) (vars : Vars) (a b : Ptr) (x : EqRes) : Prop where
  | left {q t path} : h[a]? = some (.abstract q t) → h[q]? = some (.package path false) → x = rec ((a, b) :: eq) h vars t b → Way n rec eq h vars a b x
  | right {q t path} : h[b]? = some (.abstract q t) → h[q]? = some (.package path false) → x = rec ((a, b) :: eq) h vars a t → Way n rec eq h vars a b x
  | same {na nb} : h[a]? = some na → h[b]? = some nb → (∀ q t path, na = .abstract q t → h[q]? ≠ some (.package path false)) →
      (∀ q t path, nb = .abstract q t → h[q]? ≠ some (.package path false)) → x = sameTag n rec ((a, b) :: eq) h vars a b na nb → Way n rec eq h vars a b x

theorem compareNormal_way {n : Nat} {rec : List (Ptr × Ptr) → Heap → Vars → Ptr → Ptr → EqRes} {eq : List (Ptr × Ptr)} {vars : Vars} {a b : Ptr} {res : Heap × Vars × Bool}
    (hr : compareNormal n rec eq h vars a b = .ok res) : Way n rec eq h vars a b (.ok res) := by
  rw [compareNormal, R.bind_eq_ok] at hr
  obtain ⟨na, h1, hr⟩ := hr
  rw [R.bind_eq_ok] at hr
  obtain ⟨nb, h2, hr⟩ := hr
  rw [get_ok] at h1 h2
  have hb : (∀ q t path, na = .abstract q t → h[q]? ≠ some (.package path false)) →
      (match nb with
        | .abstract q u => do if ← transparent h q then rec ((a, b) :: eq) h vars a u else sameTag n rec ((a, b) :: eq) h vars a b na nb
        | _ => sameTag n rec ((a, b) :: eq) h vars a b na nb) = .ok res → Way n rec eq h vars a b (.ok res) := by
    intro hna he
    cases nb with
    | abstract q u =>
      dsimp only at he
      rw [R.bind_eq_ok] at he
      obtain ⟨tr, h3, h4⟩ := he
      obtain ⟨path, h5⟩ := transparent_inv h3
      cases tr with
      | true => exact .right h2 h5 h4.symm
      | false =>
        refine .same h1 h2 hna ?_ h4.symm
        intro q' t' path' he'; cases he'; rw [h5]; simp
    | _ => exact .same h1 h2 hna (by simp) he.symm
  cases na with
  | abstract q t =>
    dsimp only at hr
    rw [R.bind_eq_ok] at hr
    obtain ⟨tr, h3, h4⟩ := hr
    obtain ⟨path, h5⟩ := transparent_inv h3
    cases tr with
    | true => exact .left h1 h5 h4.symm
    | false =>
      refine hb ?_ h4
      intro q' t' path' he'; cases he'; rw [h5]; simp
  | _ => exact hb (by simp) hr

theorem typesEqual_keeps (hS : Mono0 h S) (hT : Mono0 h T) (hTS : ∀ t, T t → S t) (n : Nat) : RecKeeps h S T (typesEqual n) := by
  induction n with
  | zero => intro eq vars a b _ _ _ h' vars' r he; cases he
  | succ n ih =>
    intro eq vars a b ha hb hv
    rw [typesEqual]
    refine Keeps.bind fun ⟨h1, a1⟩ hn1 => ?_
    obtain ⟨rfl, hna⟩ := normalType_inv n hS ha hn1
    refine Keeps.bind fun inf hinf => ?_
    have rest : ∀ a2, S a2 → Keeps h1 T vars (do
        let (h, b) ← normalType n h1 b
        if eq.contains (a2, b) then return (h, vars, true) else compareNormal n (typesEqual n) eq h vars a2 b) := by
      intro a2 ha2
      refine Keeps.bind fun ⟨h3, b1⟩ hn3 => ?_
      obtain ⟨rfl, hnb⟩ := normalType_inv n hT hb hn3
      dsimp only
      split
      · exact Keeps.ok hv _
      · intro h' vars' r he
        have hb1 := hnb.mem hT hb
        cases compareNormal_way he with
        | left hg _ hx => exact ih _ _ _ _ (hS.child ha2 hg (by simp [Node.children])) hb1 hv _ _ _ hx.symm
        | right hg _ hx => exact ih _ _ _ _ ha2 (hT.child hb1 hg (by simp [Node.children])) hv _ _ _ hx.symm
        | same hg hg' _ _ hx => exact sameTag_keeps n ih hS hT _ ha2 hb1 hg hg' _ hv _ _ _ hx.symm
    rcases infer_inv hinf with ⟨vars', rfl, h2, h3, hks⟩ | rfl | ⟨t, h', a', rfl, h2, h3⟩
    · intro h' vars'' r he
      cases he
      refine ⟨rfl, fun p t hp => ?_, fun v t hp => ?_, hks⟩
      · rw [h3]
        by_cases hpa : p = a1
        · subst hpa; rw [h2] at hp; cases hp
        · rw [if_neg hpa]; exact hp
      · rw [h3] at hp
        split at hp
        · cases hp; exact hb
        · exact hv _ _ hp
    · exact rest a1 (hna.mem hS ha)
    · obtain ⟨rfl, hnt⟩ := normalType_inv n hT (hv _ _ h2) h3
      exact rest a' (hTS _ (hnt.mem hT (hv _ _ h2)))

/-! ### Soundness -/

/-- The pairs that are assumed to be equal are equal, as far as needed. -/
def Assume (h : Heap) (σ : Vars) (k r : Nat) (eq : List (Ptr × Ptr)) : Prop :=
  ∀ x y, (x, y) ∈ eq → Agree h σ k x y ∧ (rk h σ x + rk h σ y ≤ r → Agree h σ (k + 1) x y)

def RecSound (h : Heap) (S T : Ptr → Prop) (rec : List (Ptr × Ptr) → Heap → Vars → Ptr → Ptr → EqRes) : Prop :=
  ∀ eq vars a b h' vars', S a → T b → (∀ v t, assigned vars v = some t → T t) → rec eq h vars a b = .ok (h', vars', true) →
    ∀ σ, Mono h σ S → Extends vars' σ → ∀ k, Assume h σ k (rk h σ a + rk h σ b) eq → Agree h σ (k + 1) a b

/-- The pair was accepted at some point before the inferred types became `vars'`. -/
def Accepted (h : Heap) (T : Ptr → Prop) (rec : Heap → Vars → Ptr → Ptr → EqRes) (vars' : Vars) (a b : Ptr) : Prop :=
  ∃ v1 v2, (∀ v t, assigned v1 v = some t → T t) ∧ rec h v1 a b = .ok (h, v2, true) ∧ Extends v2 vars'

theorem andEq_true {x : EqRes} {y : Heap → Vars → EqRes} {h' : Heap} {vars' : Vars} (he : andEq x y = .ok (h', vars', true)) :
    ∃ h1 v1, x = .ok (h1, v1, true) ∧ y h1 v1 = .ok (h', vars', true) := by
  rw [andEq, R.bind_eq_ok] at he
  obtain ⟨⟨h1, v1, b⟩, h2, h3⟩ := he
  cases b with
  | true => exact ⟨h1, v1, h2, h3⟩
  | false => cases h3

theorem namesEqual_true {x y : Name} (hn : namesEqual x y = true) : x = y := by
  cases x; cases y
  simp [namesEqual] at hn
  simp [hn]

/-- The children of two types, all accepted. -/
theorem fieldsEqual_true {rec : List (Ptr × Ptr) → Heap → Vars → Ptr → Ptr → EqRes} (hk : RecKeeps h S T rec) (eq : List (Ptr × Ptr))
    (fa fb : List (Name × Ptr)) (hl : fa.length = fb.length) (ha : ∀ c ∈ fa.map (·.2), S c) (hb : ∀ c ∈ fb.map (·.2), T c) (vars : Vars)
    (hv : ∀ v t, assigned vars v = some t → T t) {h' vars'} (he : fieldsEqual (rec eq) h vars fa fb = .ok (h', vars', true)) :
    fa.map (·.1) = fb.map (·.1) ∧ All2 (Accepted h T (rec eq) vars') (fa.map (·.2)) (fb.map (·.2)) := by
  induction fa generalizing fb vars with
  | nil =>
    cases fb with
    | nil => exact ⟨rfl, .nil⟩
    | cons => simp at hl
  | cons x fa ih =>
    cases fb with
    | nil => simp at hl
    | cons y fb =>
      obtain ⟨x, a⟩ := x
      obtain ⟨y, b⟩ := y
      rw [fieldsEqual] at he
      split at he
      · cases he
      · next hn =>
        obtain ⟨h1, v1, h2, h3⟩ := andEq_true he
        have hsa : S a := ha _ (by simp)
        have htb : T b := hb _ (by simp)
        obtain ⟨rfl, h4, h5, _⟩ := hk eq vars a b hsa htb hv _ _ _ h2
        have hfa : ∀ c ∈ fa.map (·.2), S c := fun c hc => ha c (by simp at hc ⊢; exact .inr hc)
        have hfb : ∀ c ∈ fb.map (·.2), T c := fun c hc => hb c (by simp at hc ⊢; exact .inr hc)
        obtain ⟨h6, h7, h8, _⟩ := fieldsEqual_keeps hk eq fa fb hfa hfb v1 h5 _ _ _ h3
        obtain ⟨h9, h10⟩ := ih fb (by simpa using hl) hfa hfb v1 h5 h3
        have : x = y := namesEqual_true (by simpa using hn)
        subst this
        refine ⟨by simp [h9], ?_⟩
        exact .cons ⟨vars, v1, hv, h2, h7⟩ h10

/-- Two normal forms with the same tag are accepted only if they have the same label and their
children are accepted. -/
theorem sameTag_true (n : Nat) {rec : List (Ptr × Ptr) → Heap → Vars → Ptr → Ptr → EqRes} (hrec : RecKeeps h S T rec) (hS : Mono0 h S) (hT : Mono0 h T)
    (eq : List (Ptr × Ptr)) {a b : Ptr} {na nb : Node} (ha : S a) (hb : T b) (hna : h[a]? = some na) (hnb : h[b]? = some nb) (vars : Vars)
    (hv : ∀ v t, assigned vars v = some t → T t) {h' vars'} (he : sameTag n rec eq h vars a b na nb = .ok (h', vars', true)) :
    a = b ∨ (∀ k v, na ≠ .var k v) ∧ (∀ k v, nb ≠ .var k v) ∧ label h [] a na = label h [] b nb ∧ All2 (Accepted h T (rec eq) vars') na.children nb.children := by
  have ca : ∀ c ∈ na.children, S c := fun c hc => hS.child ha hna hc
  have cb : ∀ c ∈ nb.children, T c := fun c hc => hT.child hb hnb hc
  have two : ∀ a1 a2 b1 b2, S a1 → S a2 → T b1 → T b2 → (andEq (rec eq h vars a1 b1) fun h vars => rec eq h vars a2 b2) = .ok (h', vars', true) →
      All2 (Accepted h T (rec eq) vars') [a1, a2] [b1, b2] := by
    intro a1 a2 b1 b2 ha1 ha2 hb1 hb2 he
    obtain ⟨h1, v1, h2, h3⟩ := andEq_true he
    obtain ⟨rfl, h4, h5, _⟩ := hrec _ _ _ _ ha1 hb1 hv _ _ _ h2
    obtain ⟨rfl, h7, h8, _⟩ := hrec _ _ _ _ ha2 hb2 h5 _ _ _ h3
    exact .cons ⟨vars, v1, hv, h2, h7⟩ (.cons ⟨v1, vars', h5, h3, Extends.refl _⟩ .nil)
  unfold sameTag at he
  split at he
  · split at he
    · cases he
    · next dta fa dtb fb hd =>
      simp only [ne_eq, not_or, Decidable.not_not] at hd
      obtain ⟨h1, h2⟩ := fieldsEqual_true hrec eq fa fb hd.2 ca cb vars hv he
      refine .inr ⟨by simp, by simp, ?_, h2⟩
      simp only [label, hd.1, h1]
  · refine .inr ⟨by simp, by simp, rfl, two _ _ _ _ (ca _ ?_) (ca _ ?_) (cb _ ?_) (cb _ ?_) he⟩ <;> simp [Node.children]
  · exact absurd hna (hS.noPoly ha)
  · exact absurd hna (hS.noApply ha)
  · next pa oa pb ob =>
    simp at he
    refine .inr ⟨by simp, by simp, ?_, .nil⟩
    simp only [label, he.2.2]
  · refine .inr ⟨by simp, by simp, rfl, two _ _ _ _ (ca _ ?_) (ca _ ?_) (cb _ ?_) (cb _ ?_) he⟩ <;> simp [Node.children]
  · split at he
    · simp at he; exact .inl he.2.2
    · cases he
  · next t u =>
    have hst : S t := ca _ (by simp [Node.children])
    have htu : T u := cb _ (by simp [Node.children])
    obtain ⟨rfl, _, _⟩ := hrec _ _ _ _ hst htu hv _ _ _ he
    exact .inr ⟨by simp, by simp, rfl, .cons ⟨vars, vars', hv, he, Extends.refl _⟩ .nil⟩
  · cases he

theorem final_of_same {σ : Vars} {a : Ptr} {na : Node} (hna : h[a]? = some na) (hv : ∀ k v, na ≠ .var k v)
    (ho : ∀ q t path, na = .abstract q t → h[q]? ≠ some (.package path false)) : Final h σ a where
  node := ⟨_, hna⟩
  noValue k v hc := by rw [hna] at hc; cases hc; exact hv _ _ rfl
  notInferred k hc := by rw [hna] at hc; cases hc; exact absurd rfl (hv _ _)
  opaq q t path hc := by rw [hna] at hc; cases hc; exact ho _ _ _ rfl

theorem binders_nil (hS : Mono0 h S) {a : Ptr} {na : Node} (ha : S a) (hna : h[a]? = some na) : na.binders = [] := by
  cases na with
  | poly => exact absurd hna (hS.noPoly ha)
  | _ => rfl

theorem rk_eq {σ : Vars} (hm : Mono h σ S) {a b : Ptr} (hb : S b) (h1 : ∀ r, Rank h σ b r → Rank h σ a r) : rk h σ a = rk h σ b := by
  obtain ⟨p, hp⟩ := hm.proper hb
  obtain ⟨r, hr⟩ := hp.rank
  rw [hr.rk, (h1 r hr).rk]

theorem rk_unwrap {σ : Vars} (hm : Mono h σ S) {a q t : Ptr} {path} (ht : S t) (hg : h[a]? = some (.abstract q t)) (hq : h[q]? = some (.package path false)) :
    rk h σ a = rk h σ t + 1 := by
  obtain ⟨p, hp⟩ := hm.proper ht
  obtain ⟨r, hr⟩ := hp.rank
  rw [hr.rk, (Rank.unwrap hg hq hr).rk]

theorem compareNormal_sound {n : Nat} {rec : List (Ptr × Ptr) → Heap → Vars → Ptr → Ptr → EqRes} (hk : RecKeeps h S T rec) (hs : RecSound h S T rec)
    (hT : Mono0 h T) (hTS : ∀ t, T t → S t) {eq vars a b h' vars'} (ha : S a) (hb : T b) (hv : ∀ v t, assigned vars v = some t → T t)
    (he : compareNormal n rec eq h vars a b = .ok (h', vars', true)) {σ : Vars} (hm : Mono h σ S) (hσ : Extends vars' σ) (k : Nat)
    (has : Assume h σ k (rk h σ a + rk h σ b) eq) : Agree h σ (k + 1) a b := by
  induction k with
  | zero => exact step 0 has Agree.zero
  | succ k ih =>
    refine step (k + 1) has (ih fun x y hxy => ?_)
    have := (has x y hxy).1
    exact ⟨this.le (by omega), fun _ => this⟩
where
  step (k : Nat) (has : Assume h σ k (rk h σ a + rk h σ b) eq) (hab : Agree h σ k a b) : Agree h σ (k + 1) a b := by
    cases compareNormal_way he with
    | @left q t path hg hq hx =>
      have ht : S t := hm.child ha hg (by simp [Node.children])
      refine Agree.left (is_unwrap hg hq) (hs _ _ _ _ _ _ ht hb hv hx.symm σ hm hσ k fun x y hxy => ?_)
      have hr := rk_unwrap hm ht hg hq
      rw [List.mem_cons] at hxy
      rcases hxy with hxy | hxy
      · cases hxy; exact ⟨hab, fun hc => by omega⟩
      · exact ⟨(has x y hxy).1, fun hc => (has x y hxy).2 (by omega)⟩
    | @right q t path hg hq hx =>
      have ht : T t := hT.child hb hg (by simp [Node.children])
      refine Agree.right (is_unwrap hg hq) (hs _ _ _ _ _ _ ha ht hv hx.symm σ hm hσ k fun x y hxy => ?_)
      have hr := rk_unwrap hm (hTS _ ht) hg hq
      rw [List.mem_cons] at hxy
      rcases hxy with hxy | hxy
      · cases hxy; exact ⟨hab, fun hc => by omega⟩
      · exact ⟨(has x y hxy).1, fun hc => (has x y hxy).2 (by omega)⟩
    | @same na nb hna hnb hoa hob hx =>
      rcases sameTag_true n hk hm.mono0 hT _ ha hb hna hnb vars hv hx.symm with rfl | ⟨h1, h2, h3, h4⟩
      · exact Agree.refl
      · refine Agree.step (final_of_same hna h1 hoa) (final_of_same hnb h2 hob) hna hnb h3 (binders_nil hm.mono0 ha hna) (binders_nil hT hb hnb) ?_
        refine All2.of_get h4.length_eq fun i hi hj => ?_
        obtain ⟨v1, v2, h5, h6, h7⟩ := h4.get i hi hj
        cases k with
        | zero => exact Agree.zero
        | succ k =>
          refine hs _ _ _ _ _ _ (hm.child ha hna (List.getElem_mem hi)) (hT.child hb hnb (List.getElem_mem hj)) h5 h6 σ hm (h7.trans hσ) k fun x y hxy => ?_
          have : Agree h σ (k + 1) x y := by
            rw [List.mem_cons] at hxy
            rcases hxy with hxy | hxy
            · cases hxy; exact hab
            · exact (has x y hxy).1
          exact ⟨this.le (by omega), fun _ => this⟩

theorem typesEqual_sound (hS : Mono0 h S) (hT : Mono0 h T) (hTS : ∀ t, T t → S t) (n : Nat) : RecSound h S T (typesEqual n) := by
  induction n with
  | zero => intro eq vars a b h' vars' _ _ _ he; cases he
  | succ n ih =>
    intro eq vars a b h' vars' ha hb hv he σ hm hσ k has
    rw [typesEqual, R.bind_eq_ok] at he
    obtain ⟨⟨h1, a1⟩, hn1, he⟩ := he
    obtain ⟨rfl, hna⟩ := normalType_inv n hS ha hn1
    have ha1 := hna.mem hS ha
    rw [R.bind_eq_ok] at he
    obtain ⟨inf, hinf, he⟩ := he
    refine Agree.left hna.is ?_
    rw [rk_eq hm ha1 fun r => hna.rank] at has
    have rest : ∀ a2, S a2 → Assume h1 σ k (rk h1 σ a2 + rk h1 σ b) eq → (do
        let (h, b) ← normalType n h1 b
        if eq.contains (a2, b) then return (h, vars, true) else compareNormal n (typesEqual n) eq h vars a2 b) = .ok (h', vars', true) →
        Agree h1 σ (k + 1) a2 b := by
      intro a2 ha2 has hf
      rw [R.bind_eq_ok] at hf
      obtain ⟨⟨h3, b1⟩, hn3, hf⟩ := hf
      obtain ⟨rfl, hnb⟩ := normalType_inv n hT hb hn3
      have hb1 := hnb.mem hT hb
      refine Agree.right hnb.is ?_
      rw [rk_eq hm (hTS _ hb1) fun r => hnb.rank] at has
      dsimp only at hf
      split at hf
      · next hc => exact (has _ _ (by simpa using hc)).2 (Nat.le_refl _)
      · exact compareNormal_sound (typesEqual_keeps hS hT hTS n) ih hT hTS ha2 hb1 hv hf hm hσ k has
    rcases infer_inv hinf with ⟨v2, rfl, h2, h3, _⟩ | rfl | ⟨t, h4, a', rfl, h2, h3⟩
    · cases he
      have hab : assigned σ a1 = some b := hσ _ _ (by rw [h3, if_pos rfl])
      obtain ⟨_, kd, hkd⟩ := hm.inferred ha1 hab
      exact Agree.left (is_inferred hkd hab) Agree.refl
    · exact rest a1 ha1 has he
    · obtain ⟨rfl, hnt⟩ := normalType_inv n hT (hv _ _ h2) h3
      have hext : Extends vars σ := by
        obtain ⟨_, h5, _⟩ := typesEqual_keeps hS hT hTS (n + 1) eq vars a b ha hb hv h' vars' true (by
          rw [typesEqual, R.bind_eq_ok]
          refine ⟨_, hn1, ?_⟩
          dsimp only
          rw [hinf]
          exact he)
        exact h5.trans hσ
      have hat := hext _ _ h2
      obtain ⟨_, kd, hkd⟩ := hm.inferred ha1 hat
      have ha' : T a' := hnt.mem hT (hv _ _ h2)
      refine Agree.left (is_inferred hkd hat) (Agree.left hnt.is (rest a' (hTS _ ha') ?_ he))
      rw [rk_eq (b := a') hm (hTS _ ha') fun r hr => .inferred hkd hat (hnt.rank hr)] at has
      exact has

end
end Verif.Types
