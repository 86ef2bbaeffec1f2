import Verif.Safe.Check2
/-
Casts to abstract types.
-/
namespace Verif.Elab
open Types
open Compile (Var Tc Tcs Flds Brs)

/-- What is a proper type at the end is one before. -/
theorem is_before {h H : Heap} (hm : Mono0 h (· < h.length)) (he : Ends h H) {q t : Ptr} (hi : Is H [] q t) : t < h.length → ∃ q', Is h [] q' t := by
  induction hi with
  | here hf =>
    intro ht
    obtain ⟨n, hn⟩ := hm.node ht
    obtain ⟨n', h1, h2⟩ := he _ _ hn
    refine ⟨_, .here (final_normal hn ?_ rfl ?_)⟩
    · rintro k v rfl
      rcases h2 with rfl | ⟨k1, k2, v', h2, _⟩ | ⟨path, o, h2, _⟩
      · exact hf.noValue _ _ h1
      · cases h2
      · cases h2
    · rintro q t path rfl hq
      have h3 := ends_node he hn (by simp) (by simp)
      obtain ⟨m', h4, h5⟩ := he _ _ hq
      rcases h5 with rfl | ⟨k1, k2, v', h5, _⟩ | ⟨path, o, h5, _⟩
      · exact hf.opaq _ _ _ h3 h4
      · cases h5
      · cases h5
  | @value t k v hg _ ih =>
    intro ht
    obtain ⟨n, hn⟩ := hm.node ht
    obtain ⟨n', h1, h2⟩ := he _ _ hn
    rw [hg] at h1; cases h1
    rcases h2 with rfl | ⟨k1, k2, v', rfl, h3⟩ | ⟨path, o, h2, h3⟩
    · obtain ⟨q', h4⟩ := ih (hm.value ht hn)
      exact ⟨q', .value hn h4⟩
    · exact ⟨_, .here (final_normal hn (by simp) rfl (by simp))⟩
    · cases h3
  | inferred _ ha => simp [assigned] at ha
  | @unwrap t q u path hg hq _ ih =>
    intro ht
    obtain ⟨n, hn⟩ := hm.node ht
    obtain ⟨n', h1, h2⟩ := he _ _ hn
    rw [hg] at h1; cases h1
    rcases h2 with rfl | ⟨k1, k2, v', _, h3⟩ | ⟨path, o, h2, h3⟩
    · obtain ⟨path2, o2, hp⟩ := hm.package ht hn
      cases o2 with
      | false =>
        obtain ⟨q', h4⟩ := ih (hm.child ht hn (by simp [Node.children]))
        exact ⟨q', .unwrap hn hp h4⟩
      | true => exact ⟨_, .here (final_normal hn (by simp) rfl fun q1 t1 path1 e => by cases e; rw [hp]; simp)⟩
    · cases h3
    · cases h3

/-- A cast compares types of a heap in which one more package is transparent. -/
theorem cast_mono {h : Heap} (hm : MonoHeap h) {p : Ptr} {path : List Name} (h1 : h[p]? = some (.package path true)) {H : Heap} (hE : Ends h H)
    (hall : ∀ (p : Nat) path o, H[p]? = some (.package path o) → o = false) (hproper : ∀ p, p < H.length → ∃ q, Is H [] q p) :
    Ends (h.set p (.package path false)) H ∧ Mono (h.set p (.package path false)) [] (· < (h.set p (.package path false)).length) := by
  generalize hh : h.set p (.package path false) = h'
  have hp : p < h.length := node_lt h1
  have hl : h'.length = h.length := by rw [← hh]; simp
  have hget : ∀ (i : Nat), h'[i]? = if i = p then some (.package path false) else h[i]? := by
    intro i
    rw [← hh, List.getElem?_set]
    by_cases hi : p = i
    · subst hi; simp [hp]
    · rw [if_neg hi, if_neg (fun e => hi e.symm)]
  have h0 := hm.nodes.mono0
  have hm0 : Mono0 h' (· < h'.length) := by
    refine ⟨fun {t} ht => ⟨h'[t], List.getElem?_eq_getElem ht⟩, fun {t a b} ht hg => ?_, fun {t a b} ht hg => ?_, fun {t n c} ht hg hc => ?_, fun {t k v} ht hg => ?_, fun {t q u} ht hg => ?_⟩
    all_goals rw [hget] at hg
    all_goals split at hg
    · cases hg
    · exact h0.noPoly (by rw [← hl]; exact ht) hg
    · cases hg
    · exact h0.noApply (by rw [← hl]; exact ht) hg
    · cases hg; simp [Node.children] at hc
    · rw [hl]; exact h0.child (by rw [← hl]; exact ht) hg hc
    · cases hg
    · rw [hl]; exact h0.value (by rw [← hl]; exact ht) hg
    · cases hg
    · obtain ⟨path', o', hq⟩ := h0.package (by rw [← hl]; exact ht) hg
      rw [hget]
      split
      · exact ⟨_, _, rfl⟩
      · exact ⟨_, _, hq⟩
  have hE' : Ends h' H := by
    intro i n hn
    rw [hget] at hn
    split at hn
    · rename_i e
      subst e
      cases hn
      obtain ⟨n', h2, h3⟩ := hE _ _ h1
      have : ∃ o, n' = .package path o := by
        rcases h3 with rfl | ⟨k1, k2, v', h3, _⟩ | ⟨path, o, h3, rfl⟩
        · exact ⟨_, rfl⟩
        · cases h3
        · cases h3; exact ⟨_, rfl⟩
      obtain ⟨o, rfl⟩ := this
      cases hall _ _ _ h2
      exact ⟨_, h2, .refl _⟩
    · exact hE _ _ hn
  have hlen : h.length ≤ H.length := by
    by_contra hlt
    obtain ⟨n, hn⟩ := h0.node (t := H.length) (Nat.lt_of_not_le hlt)
    obtain ⟨n', h2, _⟩ := hE _ _ hn
    exact absurd (node_lt h2) (Nat.lt_irrefl _)
  have hmono : Mono h' [] (· < h'.length) :=
    ⟨hm0.node, hm0.noPoly, hm0.noApply, hm0.child, hm0.value, fun _ ha => by simp [assigned] at ha, hm0.package, fun {t} ht => by
      obtain ⟨q, hq⟩ := hproper t (Nat.lt_of_lt_of_le (by rw [← hl]; exact ht) hlen)
      exact is_before hm0 hE' hq ht⟩
  exact ⟨hE', hmono⟩

theorem castEqual_inv {n : Nat} {p a b : Ptr} {h : Heap} (hc : castEqual n p a b h = .ok true) :
    ∃ path, h[p]? = some (.package path true) ∧ fbleTypesEqual n (h.set p (.package path false)) a b = .ok true := by
  unfold castEqual at hc
  obtain ⟨m, h1, hc⟩ := R.bind_ok.mp hc
  rw [Elab.get_ok] at h1
  cases m with
  | package path o =>
    cases o with
    | false => cases hc
    | true => exact ⟨path, h1, hc⟩
  | _ => cases hc

theorem castEqual_same {h : Heap} (hm : MonoHeap h) {n : Nat} {p a b : Ptr} (ha : a < h.length) (hb : b < h.length) (hc : castEqual n p a b h = .ok true) {H : Heap} (hE : Ends h H)
    (hO : Opened Ca H) (hCa : Ca) : SameType H [] a b := by
  obtain ⟨path, h1, hc⟩ := castEqual_inv hc
  obtain ⟨hE', hmono⟩ := cast_mono hm h1 hE hO.all (hO.proper hCa)
  have ha' : a < (h.set p (.package path false)).length := by simpa using ha
  have hb' : b < (h.set p (.package path false)).length := by simpa using hb
  exact same_ends hE' hmono hO.later ha' hb' (C23_sound hmono ha' hb' hc)

theorem openAll_get {h : Heap} {p : Ptr} {n : Node} (hp : (openAll h)[p]? = some n) : ∃ m, h[p]? = some m ∧ n = (match m with | .package path _ => .package path false | m => m) := by
  simp only [openAll, List.getElem?_map, Option.map_eq_some_iff] at hp
  obtain ⟨m, h1, h2⟩ := hp
  exact ⟨m, h1, h2.symm⟩

theorem ends_openAll {h : Heap} (hc : ∀ (p : Nat) path o, h[p]? = some (.package path o) → o = true) : Ends h (openAll h) := by
  intro p n hp
  refine ⟨_, by simp only [openAll, List.getElem?_map, hp]; rfl, ?_⟩
  cases n with
  | package path o =>
    cases hc _ _ _ hp
    exact .inr (.inr ⟨_, _, rfl, rfl⟩)
  | _ => exact .refl _

/-- What a cast compares when all packages are opaque but one. -/
theorem castEqual_closed {h : Heap} (hm : MonoHeap h) {n : Nat} {p a b : Ptr} (ha : a < h.length) (hb : b < h.length) (hc : castEqual n p a b h = .ok true) {H : Heap} (hE : Ends h H)
    (hO : Closed Ca H) (hCa : Ca) : ∃ path, h[p]? = some (.package path true) ∧ H[p]? = some (.package path true) ∧ SameType (H.set p (.package path false)) [] a b := by
  obtain ⟨path, h1, hc⟩ := castEqual_inv hc
  have hpH : H[p]? = some (.package path true) := by
    obtain ⟨n', h2, h3⟩ := hE _ _ h1
    rcases h3 with rfl | ⟨k1, k2, v', h3, _⟩ | ⟨path, o, h3, rfl⟩
    · exact h2
    · cases h3
    · cases h3
      cases hO.all _ _ _ h2
      exact h2
  have hlt : p < h.length := node_lt h1
  have hltH : p < H.length := node_lt hpH
  have hEo := hE.trans (ends_openAll hO.all)
  obtain ⟨_, hmono⟩ := cast_mono hm h1 hEo (by
    intro i path o hi
    obtain ⟨m, _, h3⟩ := openAll_get hi
    cases m <;> cases h3
    rfl) fun i hi => hO.proper hCa i (by simpa [openAll] using hi)
  have ha' : a < (h.set p (.package path false)).length := by simpa using ha
  have hb' : b < (h.set p (.package path false)).length := by simpa using hb
  have hE' : Ends (h.set p (.package path false)) (H.set p (.package path false)) := by
    intro i n hn
    rw [List.getElem?_set] at hn ⊢
    split at hn
    · subst_vars
      rw [if_pos rfl, if_pos hltH]
      exact ⟨_, rfl, by first | (cases hn; exact .refl _) | (simp [hlt] at hn; subst hn; exact .refl _)⟩
    · rename_i hne
      rw [if_neg hne]
      exact hE _ _ hn
  refine ⟨path, h1, hpH, same_ends hE' hmono (.inr fun q path' o hq hq' => ?_) ha' hb' (C23_sound hmono ha' hb' hc)⟩
  rw [List.getElem?_set] at hq hq'
  split at hq
  · subst_vars
    first | cases hq | simp [hlt] at hq
  · rename_i hne
    rw [if_neg hne] at hq'
    exact hO.all _ _ _ hq'

theorem tcCast_safe {M : List Name} {n : Nat} {rec : Rec} {recT : RecT} {package target v : Expr} (hCa : Ca) (hp : SafeT (recT package)) (ht : SafeT (recT target)) (hv : Safe Ca (rec v)) :
    Safe Ca (tcCast M n rec recT package target v) := by
  intro s s' x hs h
  unfold tcCast at h
  obtain ⟨s1, o, h1, h⟩ := TM.bind_ok.mp h
  cases o with
  | none => cases (TM.pure_ok.mp h).2
  | some pt =>
    obtain ⟨k1, k2, k3, k4⟩ := hp _ _ _ hs h1
    simp only at h
    obtain ⟨hh, p, h2, h⟩ := TM.liftH_bind.mp h
    obtain ⟨e, hn, hlt⟩ := normalType_mono k1.heap.nodes k4 h2
    subst e
    obtain ⟨m, h3, h⟩ := TM.readH_bind.mp h
    cases m with
    | package path o =>
      simp only at h
      obtain ⟨s2, o2, h4, h⟩ := TM.bind_ok.mp h
      cases o2 with
      | none => cases (TM.pure_ok.mp h).2
      | some t =>
        obtain ⟨l1, l2, l3, l4⟩ := ht _ _ _ k1 h4
        simp only at h
        obtain ⟨s3, o3, h5, h⟩ := TM.bind_ok.mp h
        cases o3 with
        | none => cases (TM.pure_ok.mp h).2
        | some f =>
          obtain ⟨vt, vtc⟩ := f
          obtain ⟨m1, m2, m3⟩ := hv _ _ _ l1 h5
          simp only at h
          split at h
          · cases (TM.pure_ok.mp h).2
          · obtain ⟨r, h6, h⟩ := TM.readH_bind.mp h
            cases r with
            | true =>
              obtain ⟨rfl, e⟩ := TM.pure_ok.mp h
              cases e
              have htl : t < s'.heap.length := prefix_lt m2.heap l4
              refine ⟨m1, ((step_quiet k2 k3).trans (step_quiet l2 l3)).trans m2, htl, fun H hE hO => ?_⟩
              exact TcTy.conv _ (m3.ty H hE hO) (castEqual_same m1.heap htl m3.lt h6 hE hO hCa).symm
            | false => cases (TM.pure_ok.mp h).2
    | _ => cases (TM.pure_ok.mp h).2

end Verif.Elab
