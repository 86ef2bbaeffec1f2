import Verif.Pack.Lemmas
import Verif.Util
namespace Verif.Pack

/-! Correctness of the constructors and accessors on words. -/

theorem repack_packs {x : Word} {d : PData} (h : Has x d.enc) (hl : d.enc.length ≤ 64) :
    Packs (repack x) d := by
  apply packs_of_hasW _ hl
  exact HasW.push one_bits h.toW

theorem packLoop_spec (poison : Word) : ∀ (as : List Word) (s : PackState) (done : List PData),
    (∀ a ∈ as, Legal a) →
    (s.ub = false → HasW s.data (PData.encs done)) →
    s.numBits = (PData.encs done).length →
    (s.ub = true → 63 ≤ s.numBits) →
    ∃ s', packLoop poison as s = some s' ∧ (s'.ub = true → 63 ≤ s'.numBits) ∧
      ((∃ ds, All2 Packs as ds ∧ s'.numBits = (PData.encs (ds.reverse ++ done)).length ∧
          (s'.ub = false → HasW s'.data (PData.encs (ds.reverse ++ done)))) ∨
       (64 ≤ s'.numBits ∧ ∃ a ∈ as, isPacked a = false))
  | [], s, done, _, h1, h2, h3 => ⟨s, rfl, h3, .inl ⟨[], .nil, by simpa using h2, by simpa using h1⟩⟩
  | a :: as, s, done, hleg, h1, h2, h3 => by
    cases hp : isPacked a with
    | false =>
      refine ⟨{ s with numBits := s.numBits + 64 }, ?_, ?_, .inr ⟨?_, a, by simp, hp⟩⟩
      · simp only [packLoop]; rw [if_neg (by simp [hp])]
      · intro h; simp only; omega
      · simp only; omega
    | true =>
      obtain ⟨d, hd⟩ := hleg a (by simp) hp
      have hlen := packedLen_depth hd.small hd.bits
      have key := packLoop_spec poison as
        { data := if decide (63 ≤ d.enc.length) || s.ub then poison else
            (s.data <<< d.enc.length) |||
              (((1#64 <<< d.enc.length) - 1#64) &&& (a.sshiftRight 1))
          numBits := s.numBits + d.enc.length
          ub := s.ub || decide (63 ≤ d.enc.length) } (d :: done)
        (fun x hx => hleg x (by simp [hx]))
        (by
          intro hub
          simp only [Bool.or_eq_false_iff, decide_eq_false_iff_not] at hub
          simp only [hub.1, Bool.or_false, decide_eq_true_eq, hub.2, if_false, PData.encs]
          exact HasW.pushBits (by omega) (h1 hub.1) hd.bits)
        (by simp [PData.encs, h2]; omega)
        (by
          intro hub
          simp only [Bool.or_eq_true, decide_eq_true_eq] at hub
          simp only
          rcases hub with h | h
          · have := h3 h; omega
          · omega)
      obtain ⟨s', hs', hub', hcase⟩ := key
      refine ⟨s', ?_, hub', ?_⟩
      · simp only [packLoop]; rw [if_pos hp, hlen]; exact hs'
      · rcases hcase with ⟨ds, hds, hn, hw⟩ | ⟨hn, b, hb, hb'⟩
        · left
          refine ⟨d :: ds, .cons hd hds, ?_, ?_⟩
          · simpa using hn
          · simpa using hw
        · right; exact ⟨hn, b, by simp [hb], hb'⟩

/-- What `FbleNewStructValue` returns on legal arguments. -/
theorem newStruct_spec (poison : Word) (args : List Word) (hleg : ∀ a ∈ args, Legal a) :
    (∃ w ds, newStruct poison args = some (.word w, false) ∧ All2 Packs args ds ∧
        Packs w (.struct ds)) ∨
    (∃ ub, newStruct poison args = some (.obj (.struct args), ub)) := by
  obtain ⟨s, hs, hub, hcase⟩ := packLoop_spec poison args.reverse ⟨0#64, 0, false⟩ []
    (fun a ha => hleg a (by simpa using ha))
    (by intro _ i hi; simp [PData.encs] at hi)
    (by simp [PData.encs]) (by simp)
  unfold newStruct
  rw [hs]
  by_cases hfit : s.numBits + args.length + 1 < 64
  · left
    have hubf : s.ub = false := by
      cases h : s.ub with
      | false => rfl
      | true => have := hub h; omega
    rcases hcase with ⟨ds, hds, hn, hw⟩ | ⟨hn, _⟩
    · refine ⟨_, ds.reverse, by simp only [hfit, if_true]; rw [hubf], ?_, ?_⟩
      · have := hds.reverse; simpa using this
      · have hlen : args.length = ds.length := by have := hds.length_eq; simpa using this
        have hw' := hw hubf
        simp only [List.append_nil] at hn hw'
        apply packs_of_hasW
        · have h1 := pushOnes_hasW args.length hw'.shl1
          have h2 := HasW.shl2_or (c := 1#64) (b0 := true) (b1 := false)
            (by intro i hi; simp) h1
          simp only [PData.enc, List.length_reverse]
          rw [hlen] at h2 ⊢
          exact h2
        · simp only [PData.enc, List.length_cons, List.length_append, List.length_replicate,
            List.length_reverse]
          omega
    · omega
  · right; exact ⟨s.ub, by simp [hfit]⟩

/-- What `FbleNewUnionValue` returns on a legal argument. -/
theorem newUnion_spec (tag : Nat) (arg : Word) (hleg : Legal arg) :
    (∃ w d, newUnion tag arg = some (.word w) ∧ Packs arg d ∧ Packs w (.union tag d)) ∨
    newUnion tag arg = some (.obj (.union tag arg)) := by
  unfold newUnion
  cases hp : isPacked arg with
  | false => right; simp
  | true =>
    obtain ⟨d, hd⟩ := hleg hp
    have hlen := packedLen_depth hd.small hd.bits
    rw [if_pos rfl]
    simp only [hlen]
    by_cases hfit : d.enc.length + tag + 1 < 64
    · left
      refine ⟨_, d, by simp only [hfit, if_true]; rfl, hd, ?_⟩
      apply packs_of_hasW
      · have h1 := pushOnes_hasW tag hd.bits.toW.shl1
        have h2 := HasW.shl2_or (c := 3#64) (b0 := true) (b1 := true)
          (by
            intro i hi
            match i, hi with
            | 0, _ => rfl
            | 1, _ => rfl
            | i + 2, hi =>
              rw [BitVec.getLsbD_ofNat, show (3:Nat) = 2^2 - 1 from rfl, Nat.testBit_two_pow_sub_one]
              simp) h1
        simpa [PData.enc] using h2
      · simp only [PData.enc, List.length_cons, List.length_append, List.length_replicate]
        omega
    · right; simp [hfit]

theorem encs_take_drop (ds : List PData) (i : Nat) :
    PData.encs ds = PData.encs (ds.take i) ++ PData.encs (ds.drop i) := by
  rw [← encs_append, List.take_append_drop]

theorem packs_inner {w : Word} {b : Bool} {n : Nat} {bs : List Bool} (_hm : isPacked w = true)
    (h : Has (w.sshiftRight 1) (b :: (List.replicate n true ++ false :: bs)))
    (hn : n ≤ 62) :
    skipOnes 65 (w.sshiftRight 2) = some (n, (w.sshiftRight 2).sshiftRight (n + 1)) ∧
      Has ((w.sshiftRight 2).sshiftRight (n + 1)) bs := by
  rw [has_cons, sshiftRight_add'] at h
  exact skipOnes_spec (by omega) h.2

theorem structFieldStrict_packed {h : Heap} {w : Word} {ds : List PData}
    (hw : Packs w (.struct ds)) {i : Nat} (hi : i < ds.length) :
    ∃ r, structFieldStrict h w i = .ok r ∧ Packs r ds[i] := by
  have hb := hw.bits
  have hs := hw.small
  simp only [PData.enc] at hb hs
  simp only [List.length_cons, List.length_append, List.length_replicate] at hs
  obtain ⟨h1, h2⟩ := packs_inner hw.marker hb (by omega)
  have hsum : (PData.encs (ds.take i)).length + (PData.encs (ds.drop i)).length =
      (PData.encs ds).length := by rw [encs_take_drop ds i]; simp
  rw [encs_take_drop ds i] at h2
  have hdep : PData.deps (ds.take i) ≤ depth := by
    have := two_deps_le_encs (ds.take i); unfold depth; omega
  have h3 := skipArgs_spec (ds.take i) depth _ _ hdep (by omega) h2
  rw [show (ds.take i).length = i by simp; omega] at h3
  have h4 := (has_append.mp h2).2
  rw [List.drop_eq_getElem_cons hi] at h4 hsum
  simp only [PData.encs, List.length_append] at h4 hsum
  refine ⟨_, ?_, repack_packs (has_append.mp h4).1 (by omega)⟩
  unfold structFieldStrict
  rw [if_pos hw.marker, h1]
  simp only [h3]

theorem unionStrict_packed {h : Heap} {w : Word} {tag : Nat} {d : PData}
    (hw : Packs w (.union tag d)) :
    unionTagStrict h w = .ok tag ∧
    (∃ r, unionArgStrict h w = .ok r ∧ unionFieldStrict h w tag = .ok r ∧ Packs r d) ∧
    ∀ t, t ≠ tag → unionFieldStrict h w t = .ok wrongUnionTag := by
  have hb := hw.bits
  have hs := hw.small
  simp only [PData.enc] at hb hs
  simp only [List.length_cons, List.length_append, List.length_replicate] at hs
  obtain ⟨h1, h2⟩ := packs_inner hw.marker hb (by omega)
  refine ⟨?_, ⟨_, ?_, ?_, repack_packs h2 (by omega)⟩, ?_⟩
  · unfold unionTagStrict; rw [if_pos hw.marker, h1]
  · unfold unionArgStrict; rw [if_pos hw.marker, h1]
  · unfold unionFieldStrict; rw [if_pos hw.marker, h1]; simp
  · intro t ht; unfold unionFieldStrict; rw [if_pos hw.marker, h1]
    simp only; rw [if_pos (Ne.symm ht)]

/-! ### The code is a prefix code -/

theorem has_ones_unique {x : Word} {n m : Nat} {bs cs : List Bool}
    (h1 : Has x (List.replicate n true ++ false :: bs))
    (h2 : Has x (List.replicate m true ++ false :: cs)) :
    n = m ∧ Has (x.sshiftRight (n+1)) bs ∧ Has (x.sshiftRight (n+1)) cs := by
  induction n generalizing x m with
  | zero =>
    cases m with
    | zero =>
      simp only [List.replicate, List.nil_append, has_cons] at h1 h2
      exact ⟨rfl, h1.2, h2.2⟩
    | succ m =>
      simp only [List.replicate, List.nil_append, List.cons_append, has_cons] at h1 h2
      rw [h1.1] at h2; exact absurd h2.1 (by simp)
  | succ n ih =>
    cases m with
    | zero =>
      simp only [List.replicate, List.nil_append, List.cons_append, has_cons] at h1 h2
      rw [h1.1] at h2; exact absurd h2.1 (by simp)
    | succ m =>
      simp only [List.replicate, List.cons_append, has_cons] at h1 h2
      obtain ⟨h3, h4, h5⟩ := ih h1.2 h2.2
      rw [sshiftRight_add', Nat.add_comm 1 (n+1)] at h4 h5
      exact ⟨by omega, h4, h5⟩

mutual
theorem enc_unique : ∀ (d e : PData) (x : Word) (r s : List Bool),
    Has x (d.enc ++ r) → Has x (e.enc ++ s) → d = e
  | .struct ds, .struct es, x, r, s, h1, h2 => by
    simp only [PData.enc, List.cons_append, List.append_assoc, has_cons] at h1 h2
    obtain ⟨hn, h3, h4⟩ := has_ones_unique h1.2 h2.2
    rw [encs_unique ds es _ r s hn h3 h4]
  | .union t d, .union u e, x, r, s, h1, h2 => by
    simp only [PData.enc, List.cons_append, List.append_assoc, has_cons] at h1 h2
    obtain ⟨hn, h3, h4⟩ := has_ones_unique h1.2 h2.2
    rw [hn, enc_unique d e _ r s h3 h4]
  | .struct ds, .union u e, x, r, s, h1, h2 => by
    simp only [PData.enc, List.cons_append, List.append_assoc, has_cons] at h1 h2
    rw [h1.1] at h2; exact absurd h2.1 (by simp)
  | .union u e, .struct ds, x, r, s, h1, h2 => by
    simp only [PData.enc, List.cons_append, List.append_assoc, has_cons] at h1 h2
    rw [h1.1] at h2; exact absurd h2.1 (by simp)
theorem encs_unique : ∀ (ds es : List PData) (x : Word) (r s : List Bool),
    ds.length = es.length → Has x (PData.encs ds ++ r) → Has x (PData.encs es ++ s) → ds = es
  | [], [], _, _, _, _, _, _ => rfl
  | [], _ :: _, _, _, _, h, _, _ => by simp at h
  | _ :: _, [], _, _, _, h, _, _ => by simp at h
  | d :: ds, e :: es, x, r, s, hl, h1, h2 => by
    simp only [PData.encs, List.append_assoc] at h1 h2
    have hde := enc_unique d e x _ _ h1 h2
    subst hde
    have := encs_unique ds es _ r s (by simpa using hl) (has_append.mp h1).2 (has_append.mp h2).2
    rw [this]
end

theorem packs_unique {w : Word} {d e : PData} (h1 : Packs w d) (h2 : Packs w e) : d = e :=
  enc_unique d e _ [] [] (by simpa using h1.bits) (by simpa using h2.bits)

/-- If no undefined behaviour is met, the loop does not depend on the poison value. -/
theorem packLoop_poison_irrel (p q : Word) : ∀ (as : List Word) (s s' : PackState),
    packLoop p as s = some s' → s'.ub = false → packLoop q as s = some s'
  | [], s, s', h, _ => by simpa [packLoop] using h
  | a :: as, s, s', h, hu => by
    unfold packLoop at h ⊢
    split at h
    · rename_i hp
      rw [if_pos hp]
      dsimp only at h ⊢
      split at h
      · cases h
      · rename_i l hl
        have h' := packLoop_poison_irrel p q as _ s' h hu
        have hub := packLoop_ub_mono p as _ s' h hu
        simp only [Bool.or_eq_false_iff] at hub
        simp only [hub.1, hub.2, Bool.or_self, Bool.false_eq_true, if_false] at h' ⊢
        exact h'
    · rename_i hp
      rw [if_neg hp]; exact h
where
  packLoop_ub_mono (p : Word) : ∀ (as : List Word) (s s' : PackState),
    packLoop p as s = some s' → s'.ub = false → s.ub = false
  | [], s, s', h, hu => by simp [packLoop] at h; subst h; exact hu
  | a :: as, s, s', h, hu => by
    unfold packLoop at h
    split at h
    · dsimp only at h
      split at h
      · cases h
      · have := packLoop_ub_mono p as _ s' h hu
        simp only [Bool.or_eq_false_iff] at this
        exact this.1
    · cases h; exact hu

theorem packStruct_poison_irrel (p q : Word) (args : List Word) {b : Built}
    (h : newStruct p args = some (b, false)) : newStruct q args = some (b, false) := by
  unfold newStruct at h ⊢
  split at h
  · cases h
  · rename_i s hs
    have hub : s.ub = false := by
      split at h <;> (simp only [Option.some.injEq, Prod.mk.injEq] at h; exact h.2)
    rw [packLoop_poison_irrel p q _ _ s hs hub]
    exact h

end Verif.Pack
