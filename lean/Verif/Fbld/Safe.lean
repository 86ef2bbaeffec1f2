import Verif.Fbld.Thm
/-!
# Errors do not crash the evaluator, with two exceptions (C53), and nothing is stored into a tree
that has been read (C50)
-/
namespace Verif.Fbld

/-! ### Where pointers may be missing -/

/-- Pointers are missing in the tree only at positions where that is expected. -/
inductive OkAt : (List Nat → Prop) → Tree → Prop where
  | null {pend} : pend [] → OkAt pend .null
  | plain {pend s} : OkAt pend (.plain s)
  | cmd {pend : List Nat → Prop} {n as} : (∀ t ∈ as, OkAt (fun _ => False) t) → OkAt pend (.cmd n as)
  | seq {pend : List Nat → Prop} {ts : List Tree} : (∀ (i : Nat) t, ts[i]? = some t → OkAt (fun p => pend (i :: p)) t) → OkAt pend (.seq ts)

/-- No pointers are missing. -/
abbrev Full (t : Tree) : Prop := OkAt (fun _ => False) t

theorem OkAt.mono {pend t} (h : OkAt pend t) : ∀ {pend' : List Nat → Prop}, (∀ p, pend p → pend' p) → OkAt pend' t := by
  induction h with
  | null h => intro pend' hp; exact .null (hp _ h)
  | plain => intro _ _; exact .plain
  | cmd h _ => intro _ _; exact .cmd h
  | seq _ ih => intro pend' hp; exact .seq fun i t ht => ih i t ht fun p h => hp _ h

theorem Full.okAt {t} (h : Full t) (pend : List Nat → Prop) : OkAt pend t := h.mono fun _ h => h.elim

theorem OkAt.write {v : Tree} (p : List Nat) : ∀ {pend pend' : List Nat → Prop} {t : Tree}, OkAt pend t → OkAt (fun q => pend' (p ++ q)) v →
    (∀ q, pend q → q = p ∨ pend' q) → OkAt pend' (writeAt p v t) := by
  induction p with
  | nil => intro pend pend' t _ hv _; exact hv
  | cons i p ih =>
    intro pend pend' t ht hv hp
    have hmono : ∀ q, pend q → q ≠ i :: p → pend' q := fun q hq hne => (hp q hq).resolve_left hne
    cases ht with
    | null h => exact .null (hmono _ h (by simp))
    | plain => exact .plain
    | cmd h => exact .cmd h
    | @seq _ ts h =>
      refine .seq fun j u hu => ?_
      rw [List.getElem?_modify] at hu
      by_cases hij : i = j
      · subst hij
        cases hts : ts[i]? with
        | none => rw [hts] at hu; simp at hu
        | some t0 =>
          rw [hts] at hu
          simp at hu
          subst hu
          exact ih (h i t0 hts) hv fun q hq => by
            rcases hp _ hq with h | h
            · exact .inl (by simpa using h)
            · exact .inr h
      · simp [hij] at hu
        exact (h j u hu).mono fun q hq => hmono _ hq (fun he => hij (by simp at he; exact he.1.symm))

mutual
theorem embed_full : (m : Markup) → Full (embed m)
  | .plain _ => .plain
  | .cmd n as => by rw [embed]; exact .cmd fun t ht => embedL_full as t ht
  | .seq ms => by rw [embed]; exact .seq fun i t ht => (embedL_full ms t (List.mem_of_getElem? ht)).okAt _
theorem embedL_full : (ms : List Markup) → ∀ t ∈ embedL ms, Full t
  | [], t, h => by simp [embedL] at h
  | m :: ms, t, h => by
    rw [embedL] at h
    rcases List.mem_cons.mp h with rfl | h
    · exact embed_full m
    · exact embedL_full ms t h
end

theorem Full.seq_mem {ts t} (h : Full (.seq ts)) (ht : t ∈ ts) : Full t := by
  cases h with
  | seq h =>
    obtain ⟨i, hi⟩ := List.getElem?_of_mem ht
    exact (h i t hi).mono fun _ h => h

theorem Full.mk_seq {ts : List Tree} (h : ∀ t ∈ ts, Full t) : Full (.seq ts) :=
  .seq fun _ t ht => (h t (List.mem_of_getElem? ht)).mono fun _ h => h

theorem not_full_null : ¬ Full .null := fun h => by cases h with | null h => exact h

/-! ### The invariant -/

/-- Destination of a command. -/
def Cmd.dest : Cmd → Dest
  | .eval d _ _ => d
  | .define d _ _ _ _ _ => d
  | .letc d _ _ _ _ => d
  | .ifc d _ _ _ _ _ => d
  | .error d _ => d
  | .head d _ => d
  | .tail d _ => d
  | .plain d _ _ _ => d

/-- Cells that a command may read: its own fields, and those of the entries of its environment. -/
def Cmd.reads : Cmd → Nat → Prop
  | .eval _ env m, k => ¬ Free env k ∨ m = .cell k
  | .define _ n as _ _ env, k => ¬ Free env k ∨ k = n ∨ k = as
  | .letc _ n df _ env, k => ¬ Free env k ∨ k = n ∨ k = df
  | .ifc _ a b _ _ env, k => ¬ Free env k ∨ k = a ∨ k = b
  | .error _ m, k => k = m
  | .head _ a, k => k = a
  | .tail _ a, k => k = a
  | .plain _ f b env, k => ¬ Free env k ∨ k = f ∨ k = b

def RefFull : Ref → Prop
  | .val t => Full t
  | .cell _ => True

def EnvFull (env : List Entry) : Prop := ∀ e ∈ env, RefFull e.body

/-- No pointers are missing in the trees held by a command. -/
def Cmd.Full : Cmd → Prop
  | .eval _ env m => EnvFull env ∧ RefFull m
  | .define _ _ _ df b env => EnvFull env ∧ Fbld.Full df ∧ Fbld.Full b
  | .letc _ _ _ b env => EnvFull env ∧ Fbld.Full b
  | .ifc _ _ _ t e env => EnvFull env ∧ Fbld.Full t ∧ Fbld.Full e
  | .error _ _ => True
  | .head _ _ => True
  | .tail _ _ => True
  | .plain _ _ _ env => EnvFull env

/-- A command does not read a cell into which it or a command below it will store. -/
def Ord : List Cmd → Prop
  | [] => True
  | c :: cs => (∀ c' ∈ c :: cs, ¬ c.reads c'.dest.cell) ∧ Ord cs

/-- What is true throughout the evaluation. -/
structure Inv (s : State) : Prop where
  ord : Ord s.stack
  dests : ∀ c ∈ s.stack, c.dest.cell < s.mem.length
  reads : ∀ c ∈ s.stack, ∀ k, c.reads k → k < s.mem.length
  rep : s.error = true → s.reported = true
  full : s.error = false → ∀ c ∈ s.stack, c.Full
  mem : s.error = false → ∀ (k : Nat) t, s.mem[k]? = some t → OkAt (fun p => ∃ c ∈ s.stack, c.dest = ⟨k, p⟩) t

theorem Ord.tail {c cs} (h : Ord (c :: cs)) : Ord cs := h.2

/-- The command is dropped, and an error recorded. -/
theorem Inv.drop {c rest mem err rep} (h : Inv ⟨c :: rest, mem, err, rep⟩) {rep' : Bool} (hr : rep' = true) : Inv ⟨rest, mem, true, rep'⟩ :=
  ⟨h.ord.tail, fun c hc => h.dests c (List.mem_cons_of_mem _ hc), fun c hc => h.reads c (List.mem_cons_of_mem _ hc), fun _ => hr,
    (by intro h; cases h), (by intro h; cases h)⟩

/-- A cell read by the first command holds a tree without missing pointers. -/
theorem Inv.load_full {c rest mem err rep} (h : Inv ⟨c :: rest, mem, err, rep⟩) (he : err = false) {k : Nat} (hk : c.reads k) : Full (load mem (.cell k)) := by
  have hlt := h.reads c (by simp) k hk
  have := h.mem he k mem[k] (List.getElem?_eq_getElem hlt)
  have hl : load mem (.cell k) = mem[k] := by simp [load, hlt]
  rw [hl]
  refine this.mono ?_
  rintro p ⟨c', hc', hd⟩
  have := h.ord.1 c' hc'
  rw [hd] at this
  exact this hk

/-- The command is replaced by one with the same destination, after evaluations into new cells. -/
theorem Inv.push {c rest mem err rep} (h : Inv ⟨c :: rest, mem, err, rep⟩) (evs : List Cmd) (last : Cmd) (j : Nat)
    (hev : ∀ n ∈ evs, (mem.length ≤ n.dest.cell ∧ n.dest.cell < mem.length + j) ∧ ∀ k, n.reads k → c.reads k)
    (hl : last.dest = c.dest) (hlr : ∀ k, last.reads k → c.reads k ∨ (mem.length ≤ k ∧ k < mem.length + j))
    (hcov : ∀ i, i < j → ∃ n ∈ evs, n.dest = ⟨mem.length + i, []⟩)
    (hfull : err = false → (∀ n ∈ evs, n.Full) ∧ last.Full) :
    Inv ⟨evs ++ last :: rest, mem ++ List.replicate j .null, err, rep⟩ := by
  have hc := h.dests c (by simp)
  have hcr := h.reads c (by simp)
  dsimp only at hc hcr
  have key : ∀ n ∈ evs ++ last :: rest, (n ∈ evs) ∨ n = last ∨ n ∈ rest := fun n hn => by simpa using hn
  refine ⟨?_, ?_, ?_, h.rep, ?_, ?_⟩
  · have hlast : Ord (last :: rest) := by
      refine ⟨?_, h.ord.tail⟩
      intro c' hc' hr
      rcases hlr _ hr with hr2 | hr2
      · rcases List.mem_cons.mp hc' with rfl | hc'
        · rw [hl] at hr2; exact h.ord.1 c (by simp) hr2
        · exact h.ord.1 c' (by simp [hc']) hr2
      · rcases List.mem_cons.mp hc' with rfl | hc'
        · rw [hl] at hr2; omega
        · have := h.dests c' (by simp [hc']); dsimp only at this; omega
    show Ord (evs ++ last :: rest)
    have hgen : ∀ (l : List Cmd), (∀ n ∈ l, n ∈ evs) → Ord (l ++ last :: rest) := by
      intro l
      induction l with
      | nil => intro _; exact hlast
      | cons n l ih =>
        intro hl'
        refine ⟨?_, ih fun n hn => hl' n (by simp [hn])⟩
        intro c' hc' hr
        have hn := hl' n (by simp)
        have hr := (hev n hn).2 _ hr
        have hc'' : c' ∈ evs ∨ c' = last ∨ c' ∈ rest := by
          have hc' : c' ∈ n :: (l ++ last :: rest) := hc'
          rw [List.mem_cons, List.mem_append, List.mem_cons] at hc'
          rcases hc' with rfl | hc' | rfl | hc'
          · exact .inl hn
          · exact .inl (hl' c' (by simp [hc']))
          · exact .inr (.inl rfl)
          · exact .inr (.inr hc')
        rcases hc'' with h1 | rfl | h1
        · have := hcr _ hr; have := (hev c' h1).1; omega
        · rw [hl] at hr; exact h.ord.1 c (by simp) hr
        · exact h.ord.1 c' (by simp [h1]) hr
    exact hgen evs fun _ h => h
  · intro n hn
    simp only [List.length_append, List.length_replicate]
    rcases key n hn with h1 | rfl | h1
    · have := (hev n h1).1; omega
    · rw [hl]; omega
    · have := h.dests n (by simp [h1]); dsimp only at this; omega
  · intro n hn k hk
    simp only [List.length_append, List.length_replicate]
    rcases key n hn with h1 | rfl | h1
    · have := hcr k ((hev n h1).2 k hk); omega
    · rcases hlr k hk with h2 | h2
      · have := hcr k h2; omega
      · omega
    · have := h.reads n (by simp [h1]) k hk; dsimp only at this; omega
  · intro he n hn
    rcases key n hn with h1 | rfl | h1
    · exact (hfull he).1 n h1
    · exact (hfull he).2
    · exact h.full he n (by simp [h1])
  · intro he k t ht
    dsimp only at ht
    rcases Nat.lt_or_ge k mem.length with hk | hk
    · rw [List.getElem?_append_left hk] at ht
      refine (h.mem he k t ht).mono ?_
      rintro p ⟨c', hc', hd⟩
      rcases List.mem_cons.mp hc' with rfl | hc'
      · exact ⟨last, by simp, by rw [hl, hd]⟩
      · exact ⟨c', by simp [hc'], hd⟩
    · rw [List.getElem?_append_right hk, List.getElem?_replicate] at ht
      split at ht
      · rename_i hlt
        cases ht
        obtain ⟨n, hn, hd⟩ := hcov _ hlt
        exact .null ⟨n, by simp [hn], by rw [hd]; congr 1; omega⟩
      · cases ht

/-- The command stores its result. -/
theorem Inv.store {c rest mem err rep} (h : Inv ⟨c :: rest, mem, err, rep⟩) (v : Tree) (hv : err = false → Full v) :
    Inv ⟨rest, write mem c.dest v, err, rep⟩ := by
  refine ⟨h.ord.tail, fun c' hc => by rw [write_length]; exact h.dests c' (List.mem_cons_of_mem _ hc),
    fun c' hc k hk => by rw [write_length]; exact h.reads c' (List.mem_cons_of_mem _ hc) k hk, h.rep,
    fun he c' hc => h.full he c' (List.mem_cons_of_mem _ hc), ?_⟩
  intro he k t ht
  dsimp only at ht he
  unfold write at ht
  rw [List.getElem?_modify] at ht
  have hother : ∀ p, (∃ c' ∈ c :: rest, c'.dest = ⟨k, p⟩) → c.dest = ⟨k, p⟩ ∨ ∃ c' ∈ rest, c'.dest = ⟨k, p⟩ := by
    rintro p ⟨c', hc', hd⟩
    rcases List.mem_cons.mp hc' with rfl | hc'
    · exact .inl hd
    · exact .inr ⟨c', hc', hd⟩
  by_cases hk : c.dest.cell = k
  · cases hm : mem[k]? with
    | none => rw [hm] at ht; simp at ht
    | some t0 =>
      rw [hm] at ht
      simp [hk] at ht
      subst ht
      refine OkAt.write c.dest.path (h.mem he k t0 hm) ((hv he).okAt _) fun q hq => ?_
      rcases hother q hq with h1 | h1
      · exact .inl (by rw [h1])
      · exact .inr h1
  · simp [hk] at ht
    refine (h.mem he k t ht).mono fun p hp => ?_
    rcases hother p hp with h1 | h1
    · rw [h1] at hk; exact absurd rfl hk
    · exact h1

theorem pushSeq_append (d : Dest) (env : List Entry) (ts : List Tree) : ∀ (i : Nat) (cmd : List Cmd), pushSeq d env i ts cmd = pushSeq d env i ts [] ++ cmd := by
  induction ts with
  | nil => intro i cmd; rfl
  | cons t ts ih => intro i cmd; rw [pushSeq, ih, pushSeq, ih (i + 1) [_]]; simp

theorem mem_pushSeq (d : Dest) (env : List Entry) (ts : List Tree) : ∀ (i : Nat) (c : Cmd),
    c ∈ pushSeq d env i ts [] ↔ ∃ (j : Nat) (t : Tree), ts[j]? = some t ∧ c = .eval ⟨d.cell, d.path ++ [i + j]⟩ env (.val t) := by
  induction ts with
  | nil => intro i c; simp [pushSeq]
  | cons t ts ih =>
    intro i c
    rw [pushSeq, pushSeq_append, List.mem_append, ih]
    constructor
    · rintro (⟨j, u, h1, h2⟩ | h)
      · exact ⟨j + 1, u, by simpa using h1, by rw [h2, Nat.add_assoc, Nat.add_comm 1 j]⟩
      · simp at h; exact ⟨0, t, rfl, h⟩
    · rintro ⟨j, u, h1, h2⟩
      cases j with
      | zero => right; simp at h1; subst h1; simpa using h2
      | succ j => left; exact ⟨j, u, by simpa using h1, by rw [h2, Nat.add_assoc, Nat.add_comm 1 j]⟩

theorem pushArgs_append (env : List Entry) (as : List Tree) : ∀ (k : Nat) (cmd : List Cmd), pushArgs env k as cmd = pushArgs env k as [] ++ cmd := by
  induction as with
  | nil => intro i cmd; rfl
  | cons t ts ih => intro i cmd; rw [pushArgs, ih, pushArgs, ih (i + 1) [_]]; simp

theorem mem_pushArgs (env : List Entry) (as : List Tree) : ∀ (k : Nat) (c : Cmd),
    c ∈ pushArgs env k as [] ↔ ∃ (j : Nat) (t : Tree), as[j]? = some t ∧ c = .eval ⟨k + j, []⟩ env (.val t) := by
  induction as with
  | nil => intro i c; simp [pushArgs]
  | cons t ts ih =>
    intro i c
    rw [pushArgs, pushArgs_append, List.mem_append, ih]
    constructor
    · rintro (⟨j, u, h1, h2⟩ | h)
      · exact ⟨j + 1, u, by simpa using h1, by rw [h2, Nat.add_assoc, Nat.add_comm 1 j]⟩
      · simp at h; exact ⟨0, t, rfl, h⟩
    · rintro ⟨j, u, h1, h2⟩
      cases j with
      | zero => right; simp at h1; subst h1; simpa using h2
      | succ j => left; exact ⟨j, u, by simpa using h1, by rw [h2, Nat.add_assoc, Nat.add_comm 1 j]⟩

/-- The elements of a sequence are to be evaluated. -/
theorem Inv.seq {d env m rest mem err rep} (h : Inv ⟨.eval d env m :: rest, mem, err, rep⟩) (ts : List Tree) (hts : err = false → ∀ t ∈ ts, Full t) :
    Inv ⟨pushSeq d env 0 ts rest, write mem d (.seq (ts.map fun _ => .null)), err, rep⟩ := by
  rw [pushSeq_append]
  have hm : ∀ n, n ∈ pushSeq d env 0 ts [] ↔ ∃ (j : Nat) (t : Tree), ts[j]? = some t ∧ n = .eval ⟨d.cell, d.path ++ [j]⟩ env (.val t) := by
    intro n; rw [mem_pushSeq]; simp
  have hread : ∀ n ∈ pushSeq d env 0 ts [], ∀ k, n.reads k → (Cmd.eval d env m).reads k := by
    intro n hn k hk
    obtain ⟨j, t, _, rfl⟩ := (hm n).mp hn
    rcases hk with hk | hk
    · exact .inl hk
    · cases hk
  have hcell : ∀ n ∈ pushSeq d env 0 ts [], n.dest.cell = d.cell := by
    intro n hn
    obtain ⟨j, t, _, rfl⟩ := (hm n).mp hn
    rfl
  refine ⟨?_, ?_, ?_, h.rep, ?_, ?_⟩
  · have hgen : ∀ (l : List Cmd), (∀ n ∈ l, n ∈ pushSeq d env 0 ts []) → Ord (l ++ rest) := by
      intro l
      induction l with
      | nil => intro _; exact h.ord.tail
      | cons n l ih =>
        intro hl
        refine ⟨?_, ih fun n hn => hl n (by simp [hn])⟩
        intro c' hc' hr
        have hr := hread n (hl n (by simp)) _ hr
        rcases List.mem_append.mp (show c' ∈ (n :: l) ++ rest from hc') with h1 | h1
        · rw [hcell c' (hl c' h1)] at hr
          exact h.ord.1 (.eval d env m) (by simp) hr
        · exact h.ord.1 c' (by simp [h1]) hr
    exact hgen _ fun _ h => h
  · intro n hn
    rw [write_length]
    rcases List.mem_append.mp hn with h1 | h1
    · rw [hcell n h1]; exact h.dests _ (by simp : Cmd.eval d env m ∈ _)
    · exact h.dests n (by simp [h1])
  · intro n hn k hk
    rw [write_length]
    rcases List.mem_append.mp hn with h1 | h1
    · exact h.reads _ (by simp : Cmd.eval d env m ∈ _) k (hread n h1 k hk)
    · exact h.reads n (by simp [h1]) k hk
  · intro he n hn
    rcases List.mem_append.mp hn with h1 | h1
    · obtain ⟨j, t, ht, rfl⟩ := (hm n).mp h1
      exact ⟨(h.full he _ (by simp : Cmd.eval d env m ∈ _)).1, hts he t (List.mem_of_getElem? ht)⟩
    · exact h.full he n (by simp [h1])
  · intro he k t ht
    dsimp only at ht he
    unfold write at ht
    rw [List.getElem?_modify] at ht
    have hother : ∀ p, (∃ c' ∈ Cmd.eval d env m :: rest, c'.dest = ⟨k, p⟩) → d = ⟨k, p⟩ ∨ ∃ c' ∈ pushSeq d env 0 ts [] ++ rest, c'.dest = ⟨k, p⟩ := by
      rintro p ⟨c', hc', hd⟩
      rcases List.mem_cons.mp hc' with rfl | hc'
      · exact .inl hd
      · exact .inr ⟨c', by simp [hc'], hd⟩
    by_cases hk : d.cell = k
    · cases hmk : mem[k]? with
      | none => rw [hmk] at ht; simp at ht
      | some t0 =>
        rw [hmk] at ht
        simp [hk] at ht
        subst ht
        refine OkAt.write d.path (h.mem he k t0 hmk) (.seq fun i u hu => ?_) fun q hq => ?_
        · rw [List.getElem?_map] at hu
          cases hi : ts[i]? with
          | none => rw [hi] at hu; simp at hu
          | some t =>
            rw [hi] at hu; simp at hu; subst hu
            exact .null ⟨.eval ⟨d.cell, d.path ++ [i]⟩ env (.val t), List.mem_append_left _ ((hm _).mpr ⟨i, t, hi, rfl⟩), by simp [Cmd.dest, hk]⟩
        · rcases hother q hq with h1 | h1
          · exact .inl (by rw [h1])
          · exact .inr h1
    · simp [hk] at ht
      refine (h.mem he k t ht).mono fun p hp => ?_
      rcases hother p hp with h1 | h1
      · rw [h1] at hk; exact absurd rfl hk
      · exact h1

/-! ### Helper functions on trees without missing pointers -/

mutual
theorem full_items : (t : Tree) → Full t → Item.null ∉ titems t ∧ Part.null ∉ tparts t
  | .null, h => absurd h not_full_null
  | .plain s, _ => by simp [titems, tparts]
  | .cmd _ _, _ => by simp [titems, tparts]
  | .seq ts, h => by simp only [titems, tparts]; exact full_itemsL ts fun t ht => h.seq_mem ht
theorem full_itemsL : (ts : List Tree) → (∀ t ∈ ts, Full t) → Item.null ∉ titemsL ts ∧ Part.null ∉ tpartsL ts
  | [], _ => by simp [titemsL, tpartsL]
  | t :: ts, h => by
    have h1 := full_items t (h t (by simp))
    have h2 := full_itemsL ts fun t ht => h t (by simp [ht])
    simp [titemsL, tpartsL, h1, h2]
end

theorem headItems_silent {l : List Item} (h : headItems l = .silent) : Item.null ∈ l := by
  match l, h with
  | .null :: _, _ => simp
  | [], h => simp [headItems] at h
  | .chr _ :: _, h => simp [headItems] at h
  | .cmd :: _, h => simp [headItems] at h

theorem sameItems_silent : (xs ys : List Item) → sameItems xs ys = .silent → Item.null ∈ xs ∨ Item.null ∈ ys
  | .null :: _, _, _ => by simp
  | .cmd :: _, _, h => by simp [sameItems] at h
  | [], .null :: _, _ => by simp
  | .chr _ :: _, .null :: _, _ => by simp
  | [], .cmd :: _, h => by simp [sameItems] at h
  | .chr _ :: _, .cmd :: _, h => by simp [sameItems] at h
  | [], [], h => by simp [sameItems] at h
  | [], .chr _ :: _, h => by simp [sameItems] at h
  | .chr _ :: _, [], h => by simp [sameItems] at h
  | .chr a :: xs, .chr b :: ys, h => by
    simp only [sameItems] at h
    split at h
    · have := sameItems_silent xs ys h; simp [this]
    · cases h

theorem catParts_silent (ps : List Part) : ∀ acc, catParts acc ps = .silent → Part.null ∈ ps := by
  induction ps with
  | nil => intro acc h; simp [catParts] at h
  | cons p ps ih =>
    intro acc h
    cases p with
    | null => simp
    | cmd => simp [catParts] at h
    | str s =>
      rw [catParts] at h
      split at h
      · cases h
      · simp [ih _ h]

theorem headOf_silent {t : Tree} (h : headOf t = .silent) : ¬ Full t := by
  rw [headOf_eq] at h
  exact fun hf => (full_items t hf).1 (headItems_silent h)

theorem eqLoop_silent {a b : Tree} (h : eqLoop a b = .silent) : ¬ (Full a ∧ Full b) := by
  rw [eqLoop_eq] at h
  rintro ⟨ha, hb⟩
  rcases sameItems_silent _ _ h with h | h
  · exact (full_items a ha).1 h
  · exact (full_items b hb).1 h

theorem text_silent {t : Tree} (h : textOfMarkup t = .silent) : ¬ Full t := by
  rw [textOfMarkup_eq] at h
  intro hf
  have := (full_items t hf).2
  split at h
  · cases h
  · rename_i hp; rw [hp] at this; simp at this
  · cases h
  · rename_i hp
    have := catParts_silent _ _ h
    simp_all

theorem text_crash {t : Tree} {c} (h : textOfMarkup t = .crash c) : c = .assertion := by
  have := C52_in_bounds t
  rw [textOfMarkup_eq] at h
  split at h
  · cases h
  · cases h
  · cases h
  · exact catParts_crash _ _ h

theorem headOf_crash (t : Tree) (c : Crash) : headOf t ≠ .crash c := by
  rw [headOf_eq]
  match titems t with
  | [] => simp [headItems]
  | .null :: _ => simp [headItems]
  | .chr _ :: _ => simp [headItems]
  | .cmd :: _ => simp [headItems]

mutual
theorem headOf_locOk : (t : Tree) → (o : Option Char) → headOf t = .ok o → locOk t = true
  | .null, o, h => by simp [headOf] at h
  | .plain _, _, _ => rfl
  | .cmd _ _, _, _ => rfl
  | .seq ts, o, h => by simp only [headOf] at h; simp only [locOk]; exact headOfL_locOk ts o h
theorem headOfL_locOk : (ts : List Tree) → (o : Option Char) → headOfL ts = .ok o → locOkL ts = true
  | [], _, _ => rfl
  | t :: ts, o, h => by
    simp only [headOfL] at h
    simp only [locOkL]
    cases ht : headOf t with
    | ok o' => exact headOf_locOk t o' ht
    | fail => rw [ht] at h; cases h
    | silent => rw [ht] at h; cases h
    | crash c => rw [ht] at h; cases h
end

theorem tailOf_full_crash {t : Tree} (hf : Full t) : tailOf t = .fail ∨ ∃ o, tailOf t = .ok o := by
  have h := tailOf_spec t
  have := (full_items t hf).1
  cases hi : titems t with
  | nil => rw [hi] at h; exact .inr ⟨_, h⟩
  | cons i l =>
    rw [hi] at h this
    cases i with
    | chr c => obtain ⟨u, h1, _⟩ := h; exact .inr ⟨_, h1⟩
    | cmd => exact .inl h
    | null => simp at this

theorem tailOf_not_silent (t : Tree) : tailOf t ≠ .silent := by
  have h := tailOf_spec t
  intro hs
  rw [hs] at h
  cases hi : titems t with
  | nil => rw [hi] at h; cases h
  | cons i l =>
    rw [hi] at h
    cases i with
    | chr c => obtain ⟨u, h1, _⟩ := h; cases h1
    | cmd => cases h
    | null => cases h

mutual
theorem tailOf_full : (t u : Tree) → Full t → tailOf t = .ok (some u) → Full u
  | .null, u, _, h => by simp [tailOf] at h
  | .plain [], u, _, h => by simp [tailOf] at h
  | .plain (_ :: _), u, _, h => by simp [tailOf] at h; subst h; exact .plain
  | .cmd _ _, u, _, h => by simp [tailOf] at h
  | .seq ts, u, hf, h => by simp only [tailOf] at h; exact tailOfL_full ts u (fun t ht => hf.seq_mem ht) h
theorem tailOfL_full : (ts : List Tree) → (u : Tree) → (∀ t ∈ ts, Full t) → tailOfL ts = .ok (some u) → Full u
  | [], u, _, h => by simp [tailOfL] at h
  | t :: ts, u, hf, h => by
    rw [tailOfL] at h
    cases ht : tailOf t with
    | ok o =>
      rw [ht] at h
      cases o with
      | none => exact tailOfL_full ts u (fun t ht => hf t (by simp [ht])) h
      | some child =>
        have hc := tailOf_full t child (hf t (by simp)) ht
        cases ts with
        | nil => simp at h; subst h; exact hc
        | cons t' ts' =>
          simp at h; subst h
          refine Full.mk_seq fun x hx => ?_
          rcases List.mem_cons.mp hx with rfl | hx
          · exact hc
          · exact hf x (List.mem_cons_of_mem _ hx)
    | fail => rw [ht] at h; simp at h
    | silent => rw [ht] at h; simp at h
    | crash c => rw [ht] at h; simp at h
end

mutual
theorem mapPlain_full (f : Str) : (t : Tree) → Full t → ∃ u, mapPlain f t = some u ∧ Full u
  | .null, h => absurd h not_full_null
  | .plain s, _ => ⟨_, rfl, .cmd fun t ht => by simp at ht; subst ht; exact .plain⟩
  | .cmd n as, h => ⟨_, rfl, h⟩
  | .seq ts, h => by
    obtain ⟨us, h1, h2⟩ := mapPlainL_full f ts fun t ht => h.seq_mem ht
    exact ⟨.seq us, by rw [mapPlain, h1], Full.mk_seq h2⟩
theorem mapPlainL_full (f : Str) : (ts : List Tree) → (∀ t ∈ ts, Full t) → ∃ us, mapPlainL f ts = some us ∧ ∀ t ∈ us, Full t
  | [], _ => ⟨[], rfl, by simp⟩
  | t :: ts, h => by
    obtain ⟨u, h1, h2⟩ := mapPlain_full f t (h t (by simp))
    obtain ⟨us, h3, h4⟩ := mapPlainL_full f ts fun t ht => h t (by simp [ht])
    exact ⟨u :: us, by rw [mapPlainL, h1, h3], fun x hx => by
      rcases List.mem_cons.mp hx with rfl | hx
      · exact h2
      · exact h4 x hx⟩
end

/-! ### One turn -/

/-- The next state satisfies the invariant; or the program ends abnormally, by the assertion in
`TextOfMarkup`, or after an error by following a NULL pointer in `@tail` or `@plain`. -/
def SafeNext (c : Cmd) (err : Bool) (x : Next) : Prop :=
  match x with
  | .run s => Inv s
  | .halt => False
  | .crash k => k = .assertion ∨ (k = .nullDeref ∧ err = true ∧ ((∃ d a, c = .tail d a) ∨ ∃ d f b env, c = .plain d f b env))

theorem safe_fail {c rest mem err rep} (h : Inv ⟨c :: rest, mem, err, rep⟩) : SafeNext c err (.run ⟨rest, mem, true, true⟩) :=
  (h.drop rfl : Inv ⟨rest, mem, true, true⟩)

/-- A helper function that works on cells read by the command. -/
theorem safe_orFail {α : Type} {c rest mem err rep} (h : Inv ⟨c :: rest, mem, err, rep⟩) {r : CRes α} {f : α → Next}
    (hs : r = .silent → err = true) (hc : ∀ k, r = .crash k → k = .assertion) (hf : ∀ a, r = .ok a → SafeNext c err (f a)) :
    SafeNext c err (orFail ⟨rest, mem, err, rep⟩ r f) := by
  cases r with
  | ok a => exact hf a rfl
  | fail => exact safe_fail h
  | silent => exact (h.drop (h.rep (hs rfl)) : Inv ⟨rest, mem, true, rep⟩)
  | crash k => exact .inl (hc k rfl)

theorem err_of_not_full {c rest mem err rep} (h : Inv ⟨c :: rest, mem, err, rep⟩) {k : Nat} (hk : c.reads k) (hn : ¬ Full (load mem (.cell k))) : err = true := by
  cases err with
  | true => rfl
  | false => exact absurd (h.load_full rfl hk) hn

theorem safe_text {c rest mem err rep} (h : Inv ⟨c :: rest, mem, err, rep⟩) {k : Nat} (hk : c.reads k) {f : Str → Next}
    (hf : ∀ a, SafeNext c err (f a)) : SafeNext c err (orFail ⟨rest, mem, err, rep⟩ (textOfMarkup (load mem (.cell k))) f) :=
  safe_orFail h (fun hs => err_of_not_full h hk (text_silent hs)) (fun _ hc => text_crash hc) fun a _ => hf a

/-- The command is replaced by another one. -/
theorem Inv.replace {c rest mem err rep} (h : Inv ⟨c :: rest, mem, err, rep⟩) (last : Cmd) (hl : last.dest = c.dest) (hlr : ∀ k, last.reads k → c.reads k)
    (hfull : err = false → last.Full) : Inv ⟨last :: rest, mem, err, rep⟩ := by
  have := h.push [] last 0 (by simp) hl (fun k hk => .inl (hlr k hk)) (by intro i hi; omega) (fun he => ⟨by simp, hfull he⟩)
  simpa using this

/-- The command is replaced by another one that needs one more evaluation. -/
theorem Inv.push1 {d env m rest mem err rep} (h : Inv ⟨.eval d env m :: rest, mem, err, rep⟩) (t : Tree) (last : Cmd) (ht : err = false → Full t) (hl : last.dest = d)
    (hlr : ∀ k, last.reads k → ¬ Free env k ∨ k = mem.length) (hfull : err = false → EnvFull env → last.Full) :
    Inv ⟨.eval ⟨mem.length, []⟩ env (.val t) :: last :: rest, mem ++ [.null], err, rep⟩ := by
  refine h.push [.eval ⟨mem.length, []⟩ env (.val t)] last 1 ?_ hl ?_ ?_ ?_
  · intro n hn
    simp at hn
    subst hn
    exact ⟨⟨Nat.le_refl _, Nat.lt_succ_self _⟩, fun k hk => hk.elim .inl fun h => by cases h⟩
  · intro k hk
    rcases hlr k hk with h1 | h1
    · exact .inl (.inl h1)
    · exact .inr (by omega)
  · intro i hi
    have : i = 0 := by omega
    subst this
    exact ⟨_, List.mem_singleton.mpr rfl, rfl⟩
  · intro he
    have henv : EnvFull env := (h.full he _ (List.mem_cons_self ..)).1
    refine ⟨fun n hn => ?_, hfull he henv⟩
    simp at hn; subst hn
    exact ⟨henv, ht he⟩

/-- The command is replaced by another one that needs two more evaluations. -/
theorem Inv.push2 {d env m rest mem err rep} (h : Inv ⟨.eval d env m :: rest, mem, err, rep⟩) (t u : Tree) (last : Cmd) (ht : err = false → Full t ∧ Full u) (hl : last.dest = d)
    (hlr : ∀ k, last.reads k → ¬ Free env k ∨ k = mem.length ∨ k = mem.length + 1) (hfull : err = false → EnvFull env → last.Full) :
    Inv ⟨.eval ⟨mem.length + 1, []⟩ env (.val u) :: .eval ⟨mem.length, []⟩ env (.val t) :: last :: rest, mem ++ [.null, .null], err, rep⟩ := by
  refine h.push [.eval ⟨mem.length + 1, []⟩ env (.val u), .eval ⟨mem.length, []⟩ env (.val t)] last 2 ?_ hl ?_ ?_ ?_
  · intro n hn
    simp at hn
    rcases hn with rfl | rfl
    · exact ⟨⟨Nat.le_succ _, Nat.lt_succ_self _⟩, fun k hk => hk.elim .inl fun h => by cases h⟩
    · exact ⟨⟨Nat.le_refl _, Nat.lt_add_of_pos_right (by omega)⟩, fun k hk => hk.elim .inl fun h => by cases h⟩
  · intro k hk
    rcases hlr k hk with h1 | h1
    · exact .inl (.inl h1)
    · exact .inr (by omega)
  · intro i hi
    have : i = 0 ∨ i = 1 := by omega
    rcases this with rfl | rfl
    · exact ⟨.eval ⟨mem.length, []⟩ env (.val t), by simp, rfl⟩
    · exact ⟨.eval ⟨mem.length + 1, []⟩ env (.val u), by simp, rfl⟩
  · intro he
    have henv : EnvFull env := (h.full he _ (List.mem_cons_self ..)).1
    refine ⟨fun n hn => ?_, hfull he henv⟩
    simp at hn
    rcases hn with rfl | rfl
    · exact ⟨henv, (ht he).2⟩
    · exact ⟨henv, (ht he).1⟩

theorem safe_builtin {d env m rest mem err rep name} {args : List Tree} (h : Inv ⟨.eval d env m :: rest, mem, err, rep⟩) (ha : err = false → ∀ t ∈ args, Full t) :
    SafeNext (.eval d env m) err (stepBuiltin ⟨rest, mem, err, rep⟩ d env name args) := by
  unfold stepBuiltin
  dsimp only
  split
  · split
    · exact h.push1 _ (.error d mem.length) (fun he => ha he _ (by simp)) rfl (fun k hk => .inr hk) fun _ _ => trivial
    · exact safe_fail h
  split
  · split
    · exact h.push2 _ _ (.define d mem.length (mem.length + 1) _ _ env) (fun he => ⟨ha he _ (by simp), ha he _ (by simp)⟩) rfl (fun k hk => hk)
        fun he henv => ⟨henv, ha he _ (by simp), ha he _ (by simp)⟩
    · exact safe_fail h
  split
  · split
    · exact h.push2 _ _ (.letc d mem.length (mem.length + 1) _ env) (fun he => ⟨ha he _ (by simp), ha he _ (by simp)⟩) rfl (fun k hk => hk)
        fun he henv => ⟨henv, ha he _ (by simp)⟩
    · exact safe_fail h
  split
  · split
    · exact h.push1 _ (.head d mem.length) (fun he => ha he _ (by simp)) rfl (fun k hk => .inr hk) fun _ _ => trivial
    · exact safe_fail h
  split
  · split
    · exact h.push1 _ (.tail d mem.length) (fun he => ha he _ (by simp)) rfl (fun k hk => .inr hk) fun _ _ => trivial
    · exact safe_fail h
  split
  · split
    · exact h.push2 _ _ (.ifc d mem.length (mem.length + 1) _ _ env) (fun he => ⟨ha he _ (by simp), ha he _ (by simp)⟩) rfl (fun k hk => hk)
        fun he henv => ⟨henv, ha he _ (by simp), ha he _ (by simp)⟩
    · exact safe_fail h
  split
  · split
    · exact h.push2 _ _ (.ifc d mem.length (mem.length + 1) _ _ env) (fun he => ⟨ha he _ (by simp), ha he _ (by simp)⟩) rfl (fun k hk => hk)
        fun he henv => ⟨henv, ha he _ (by simp), ha he _ (by simp)⟩
    · exact safe_fail h
  split
  · split
    · exact h.push1 _ (.eval d env (.cell mem.length)) (fun he => ha he _ (by simp)) rfl (fun k hk => hk.elim .inl fun h => .inr (by cases h; rfl))
        fun _ henv => ⟨henv, trivial⟩
    · exact safe_fail h
  split
  · split
    · exact h.push2 _ _ (.plain d mem.length (mem.length + 1) env) (fun he => ⟨ha he _ (by simp), ha he _ (by simp)⟩) rfl (fun k hk => hk)
        fun he henv => henv
    · exact safe_fail h
  exact h.store _ fun he => .cmd (ha he)

theorem argEnv_free (ps : List Str) : ∀ (k : Nat) (env : List Entry) (i : Nat), ¬ Free (argEnv k ps env) i → ¬ Free env i ∨ (k ≤ i ∧ i < k + ps.length) := by
  induction ps with
  | nil => intro k env i h; exact .inl h
  | cons p ps ih =>
    intro k env i h
    rw [argEnv] at h
    rcases ih _ _ _ h with h1 | h1
    · by_cases hk : i = k
      · exact .inr (by simp; omega)
      · left
        intro hf
        refine h1 fun e he hb => ?_
        rcases List.mem_cons.mp he with rfl | he
        · simp at hb; exact hk hb.symm
        · exact hf e he hb
    · exact .inr (by simp; omega)

theorem argEnv_full (ps : List Str) : ∀ (k : Nat) (env : List Entry), EnvFull env → EnvFull (argEnv k ps env) := by
  induction ps with
  | nil => intro k env h; exact h
  | cons p ps ih =>
    intro k env h
    refine ih _ _ fun e he => ?_
    rcases List.mem_cons.mp he with rfl | he
    · exact trivial
    · exact h e he

theorem lookup_mem {name : Str} {env : List Entry} {e es} (h : lookup name env = some (e, es)) : e ∈ es ∧ ∀ x ∈ es, x ∈ env := by
  induction env with
  | nil => simp [lookup] at h
  | cons e' env ih =>
    rw [lookup] at h
    split at h
    · simp at h; obtain ⟨rfl, rfl⟩ := h; exact ⟨by simp, fun _ h => h⟩
    · obtain ⟨h1, h2⟩ := ih h
      exact ⟨h1, fun x hx => List.mem_cons_of_mem _ (h2 x hx)⟩

theorem not_free_of {e : Entry} {env : List Entry} {k : Nat} (he : e ∈ env) (hb : e.body = .cell k) : ¬ Free env k := fun hf => hf e he hb

theorem not_free_sub {env env' : List Entry} {k : Nat} (hs : ∀ x ∈ env, x ∈ env') (h : ¬ Free env k) : ¬ Free env' k :=
  fun hf => h fun e he => hf e (hs e he)

theorem safe_eval {d env m rest mem err rep} (h : Inv ⟨.eval d env m :: rest, mem, err, rep⟩) :
    SafeNext (.eval d env m) err (stepEval ⟨rest, mem, err, rep⟩ d env (load mem m)) := by
  have hfull : err = false → Full (load mem m) := by
    intro he
    cases m with
    | val t => exact (h.full he _ (List.mem_cons_self ..)).2
    | cell k => exact h.load_full he (.inr rfl)
  cases hm : load mem m with
  | null =>
    cases err with
    | false => rw [hm] at hfull; exact absurd (hfull rfl) not_full_null
    | true => exact (h.drop (h.rep rfl) : Inv ⟨rest, mem, true, rep⟩)
  | plain s => exact h.store (.plain s) fun _ => .plain
  | seq ts =>
    rw [hm] at hfull
    exact h.seq ts fun he t ht => (hfull he).seq_mem ht
  | cmd name args =>
    rw [hm] at hfull
    have ha : err = false → ∀ t ∈ args, Full t := fun he t ht => by
      cases hfull he with
      | cmd h => exact h t ht
    unfold stepEval
    dsimp only
    cases hl : lookup name env with
    | none => exact safe_builtin h ha
    | some p =>
      obtain ⟨e, next⟩ := p
      obtain ⟨hmem, hsub⟩ := lookup_mem hl
      have hbody : err = false → Full (load mem e.body) := by
        intro he
        cases hb : e.body with
        | val t =>
          have := (h.full he _ (List.mem_cons_self ..)).1 e (hsub e hmem)
          rw [hb] at this
          exact this
        | cell k => exact h.load_full he (.inl (not_free_of (hsub e hmem) hb))
      dsimp only
      by_cases har : args.length = e.arity
      case neg => rw [if_pos har]; exact safe_fail h
      · rw [if_neg (not_not_intro har)]
        split
        · exact h.store _ hbody
        · rename_i ps hps
          have hlen : args.length = ps.length := by
            have : e.arity = ps.length := by rw [Entry.arity, hps]
            omega
          rw [pushArgs_append, List.map_const']
          refine h.push (pushArgs env mem.length args []) _ ps.length ?_ rfl ?_ ?_ ?_
          · intro n hn
            obtain ⟨j, t, hj, rfl⟩ := (mem_pushArgs env args _ _).mp hn
            have := (List.getElem?_eq_some_iff.mp hj).1
            exact ⟨⟨Nat.le_add_right .., by show mem.length + j < _; omega⟩, fun k hk => hk.elim .inl fun h => by cases h⟩
          · intro k hk
            rcases hk with hk | hk
            · rcases argEnv_free _ _ _ _ hk with h1 | h1
              · exact .inl (.inl (not_free_sub hsub h1))
              · exact .inr h1
            · cases hk
          · intro i hi
            have hi' : i < args.length := by omega
            exact ⟨_, (mem_pushArgs env args _ _).mpr ⟨i, args[i], List.getElem?_eq_getElem hi', rfl⟩, rfl⟩
          · intro he
            have henv : EnvFull env := (h.full he _ (List.mem_cons_self ..)).1
            refine ⟨fun n hn => ?_, argEnv_full _ _ _ fun x hx => henv x (hsub x hx), hbody he⟩
            obtain ⟨j, t, hj, rfl⟩ := (mem_pushArgs env args _ _).mp hn
            exact ⟨henv, ha he t (List.mem_of_getElem? hj)⟩

theorem safe_step {c rest mem err rep} (h : Inv ⟨c :: rest, mem, err, rep⟩) : SafeNext c err (step ⟨c :: rest, mem, err, rep⟩) := by
  cases c with
  | eval d env m => exact safe_eval h
  | define d n as df body env =>
    refine safe_text h (.inr (.inl rfl)) fun name => safe_text h (.inr (.inr rfl)) fun args => ?_
    refine h.replace _ rfl (fun k hk => hk.elim (fun hk => .inl fun hf => hk ?_) fun h => by cases h) fun he => ?_
    · intro e he hb
      rcases List.mem_cons.mp he with rfl | he
      · cases hb
      · exact hf e he hb
    · have := h.full he _ (List.mem_cons_self ..)
      refine ⟨fun e he => ?_, this.2.2⟩
      rcases List.mem_cons.mp he with rfl | he
      · exact this.2.1
      · exact this.1 e he
  | letc d n df body env =>
    refine safe_text h (.inr (.inl rfl)) fun name => ?_
    refine h.replace _ rfl (fun k hk => hk.elim (fun hk => .inl fun hf => hk ?_) fun h => by cases h) fun he => ?_
    · intro e he hb
      rcases List.mem_cons.mp he with rfl | he
      · cases hb
      · exact hf e he hb
    · have := h.full he _ (List.mem_cons_self ..)
      refine ⟨fun e he' => ?_, this.2⟩
      rcases List.mem_cons.mp he' with rfl | he'
      · exact h.load_full he (.inr (.inr rfl))
      · exact this.1 e he'
  | ifc d a b t e env =>
    refine safe_orFail h (fun hs => ?_) (fun k hk => absurd hk (C51_no_crash _ _ k)) fun eq _ => ?_
    · cases err with
      | true => rfl
      | false => exact absurd ⟨h.load_full rfl (.inr (.inl rfl)), h.load_full rfl (.inr (.inr rfl))⟩ (eqLoop_silent hs)
    · refine h.replace _ rfl (fun k hk => hk.elim .inl fun h => by cases h) fun he => ?_
      have := h.full he _ (List.mem_cons_self ..)
      refine ⟨this.1, ?_⟩
      show Full _
      cases eq
      · exact this.2.2
      · exact this.2.1
  | error d m => exact safe_text h rfl fun _ => safe_fail h
  | head d a =>
    refine safe_orFail h (fun hs => err_of_not_full h rfl (headOf_silent hs)) (fun k hk => absurd hk (headOf_crash _ k)) fun o ho => ?_
    cases o with
    | none => exact h.store _ fun he => h.load_full he rfl
    | some c =>
      dsimp only
      rw [if_pos (headOf_locOk _ _ ho)]
      exact h.store _ fun _ => .plain
  | tail d a =>
    simp only [step]
    cases ht : tailOf (load mem (.cell a)) with
    | ok o =>
      cases o with
      | none => exact h.store _ fun he => h.load_full he rfl
      | some t => exact h.store _ fun he => tailOf_full _ _ (h.load_full he rfl) ht
    | fail =>
      have h' := h.drop (rep' := true) rfl
      refine ⟨h'.ord, fun c hc => ?_, fun c hc => ?_, fun _ => rfl, (by intro h; cases h), (by intro h; cases h)⟩
      · simp only [write_length]; exact h'.dests c hc
      · simp only [write_length]; exact h'.reads c hc
    | silent => exact absurd ht (tailOf_not_silent _)
    | crash k =>
      cases err with
      | false =>
        rcases tailOf_full_crash (h.load_full rfl (rfl : (Cmd.tail d a).reads a)) with h1 | ⟨o, h1⟩ <;> rw [h1] at ht <;> cases ht
      | true =>
        refine .inr ⟨?_, rfl, .inl ⟨d, a, rfl⟩⟩
        have hsp := tailOf_spec (load mem (.cell a))
        rw [ht] at hsp
        cases hi : titems (load mem (.cell a)) with
        | nil => rw [hi] at hsp; cases hsp
        | cons i l =>
          rw [hi] at hsp
          cases i with
          | chr c => obtain ⟨u, h1, _⟩ := hsp; cases h1
          | cmd => cases hsp
          | null => cases hsp; rfl
  | plain d f b env =>
    refine safe_text h (.inr (.inl rfl)) fun name => ?_
    dsimp only
    cases err with
    | false =>
      obtain ⟨u, h1, h2⟩ := mapPlain_full name _ (h.load_full rfl (.inr (.inr rfl) : (Cmd.plain d f b env).reads b))
      rw [h1]
      exact h.replace (.eval d env (.val u)) rfl (fun k hk => hk.elim .inl fun h => by cases h) fun he => ⟨h.full he _ (List.mem_cons_self ..), h2⟩
    | true =>
      cases mapPlain name (load mem (.cell b)) with
      | none => exact .inr ⟨rfl, rfl, .inr ⟨d, f, b, env, rfl⟩⟩
      | some u =>
        exact h.replace (.eval d env (.val u)) rfl (fun k hk => hk.elim .inl fun h => by cases h) fun he => by cases he

end Verif.Fbld
