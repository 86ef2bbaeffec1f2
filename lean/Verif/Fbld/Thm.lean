import Verif.Fbld.Sim
/-!
# The stack machine computes the meaning: main proof and theorems (C50)
-/
namespace Verif.Fbld

/-- The end of an evaluation: the result is stored. -/
theorem goal_store {n : Nat} {rep rest} {mem x : List Tree} {d : Dest} (hd : d.cell < mem.length) {v : Markup} :
    NGoal n (.run (St rep rest (write (mem ++ x) d (embed v)))) (.ok v) fun v s' => ∃ y, s' = St rep rest (write mem d (embed v) ++ y) :=
  NGoal.ok ⟨x, by rw [write_append _ _ _ _ hd]⟩

/-- An evaluation whose result is the result. -/
theorem Sim.last {n : Nat} (hn : Sim n) {rep E m env d rest} {mem x : List Tree} (hd : d.cell < mem.length) (he : EnvOk (mem ++ x) env E)
    (hf : Free env d.cell) {r : Ref} (hr : load (mem ++ x) r = embed m) :
    NGoal n (.run (St rep (.eval d env r :: rest) (mem ++ x))) (eval n E m) fun v s' => ∃ y, s' = St rep rest (write mem d (embed v) ++ y) := by
  refine (hn rep E m env d rest (mem ++ x) r (by simp; omega) he hf hr).mono ?_
  rintro v s' ⟨y, rfl⟩
  exact ⟨x ++ y, by rw [write_append _ _ _ _ hd, List.append_assoc]⟩

theorem sim_builtin {n : Nat} (hn : Sim n) {rep E env d rest mem name} {args : List Markup} (hd : d.cell < mem.length) (he : EnvOk mem env E) (hf : Free env d.cell) :
    NGoal n (stepBuiltin (St rep rest mem) d env name (embedL args)) (evalBuiltin (eval n) E name args)
      fun v s' => ∃ x, s' = St rep rest (write mem d (embed v) ++ x) := by
  have bad : NGoal n (.run { St rep rest mem with error := true, reported := true }) .err
      fun v s' => ∃ x, s' = St rep rest (write mem d (embed v) ++ x) := NGoal.err rfl
  unfold stepBuiltin evalBuiltin
  dsimp only
  by_cases h0 : name = nError
  · rw [if_pos h0, if_pos h0]
    split
    · rename_i m h
      match args, h with
      | [m'], h =>
        simp only [embedL, List.cons.injEq, and_true] at h
        subst h
        refine (hn.one (E := E) (m := m') (e := []) he).bind ?_
        rintro v s' ⟨y, rfl⟩
        apply NGoal.step'
        simp only [step, List.append_assoc, List.cons_append, List.nil_append]
        rw [load_mid]
        rcases text_cases v with h1 | ⟨x, h1, h2⟩ | ⟨h1, h2⟩
        · rw [h1]; rfl
        · rw [h2]; exact NGoal.err rfl
        · rw [h2]; exact NGoal.err rfl
    · rename_i h
      split
      · exact (h _ rfl).elim
      · exact bad
  rw [if_neg h0, if_neg h0]
  clear h0
  by_cases h0 : name = nDefine
  · rw [if_pos h0, if_pos h0]
    split
    · rename_i h
      match args, h with
      | [_, _, _, _], h =>
        simp only [embedL, List.cons.injEq, and_true] at h
        obtain ⟨rfl, rfl, rfl, rfl⟩ := h
        refine hn.two he fun va vb x => ?_
        apply NGoal.step'
        simp only [step]
        rw [load_mid, load_mid2]
        refine goal_text fun name => goal_text fun as => ?_
        rw [splitArgs_words]
        refine hn.last hd (.cons ⟨rfl, rfl, rfl, by intro k h; cases h⟩ (he.append _)) ?_ rfl
        intro e he h
        rcases List.mem_cons.mp he with rfl | he
        · cases h
        · exact hf e he h
    · rename_i h
      split
      · exact (h _ _ _ _ rfl).elim
      · exact bad
  rw [if_neg h0, if_neg h0]
  clear h0
  by_cases h0 : name = nLet
  · rw [if_pos h0, if_pos h0]
    split
    · rename_i h
      match args, h with
      | [_, _, _], h =>
        simp only [embedL, List.cons.injEq, and_true] at h
        obtain ⟨rfl, rfl, rfl⟩ := h
        refine hn.two he fun va vb x => ?_
        apply NGoal.step'
        simp only [step]
        rw [load_mid, load_mid2]
        refine goal_text fun name => ?_
        refine hn.last hd (.cons ⟨rfl, rfl, rfl, by intro k h; cases h⟩ (he.append _)) ?_ rfl
        intro e he h
        rcases List.mem_cons.mp he with rfl | he
        · cases h
        · exact hf e he h
    · rename_i h
      split
      · exact (h _ _ _ rfl).elim
      · exact bad
  rw [if_neg h0, if_neg h0]
  clear h0
  by_cases h0 : name = nHead
  · rw [if_pos h0, if_pos h0]
    split
    · rename_i m h
      match args, h with
      | [m'], h =>
        simp only [embedL, List.cons.injEq, and_true] at h
        subst h
        refine (hn.one (E := E) (m := m') (e := []) he).bind ?_
        rintro v s' ⟨y, rfl⟩
        apply NGoal.step'
        simp only [step, List.append_assoc, List.cons_append, List.nil_append]
        rw [load_mid]
        refine goal_is (C51_head v) fun o ho => ?_
        cases o with
        | none => exact goal_store hd
        | some c => simp only [locOk_embed, if_true]; exact goal_store hd (v := .plain [c])
    · rename_i h
      split
      · exact (h _ rfl).elim
      · exact bad
  rw [if_neg h0, if_neg h0]
  clear h0
  by_cases h0 : name = nTail
  · rw [if_pos h0, if_pos h0]
    split
    · rename_i m h
      match args, h with
      | [m'], h =>
        simp only [embedL, List.cons.injEq, and_true] at h
        subst h
        refine (hn.one (E := E) (m := m') (e := []) he).bind ?_
        rintro v s' ⟨y, rfl⟩
        apply NGoal.step'
        simp only [step, List.append_assoc, List.cons_append, List.nil_append]
        rw [load_mid]
        have ht := C51_tail v
        cases hi : items v with
        | nil => rw [hi] at ht; rw [show tailOf (embed v) = .ok none from ht]; exact goal_store hd
        | cons o l =>
          cases o with
          | none => rw [hi] at ht; rw [show tailOf (embed v) = .fail from ht]; exact NGoal.err rfl
          | some c => rw [dropFirst_spec v c l hi]; exact goal_store hd
    · rename_i h
      split
      · exact (h _ rfl).elim
      · exact bad
  rw [if_neg h0, if_neg h0]
  clear h0
  by_cases h0 : name = nIfeq
  · rw [if_pos h0, if_pos h0]
    split
    · rename_i h
      match args, h with
      | [_, _, _, _], h =>
        simp only [embedL, List.cons.injEq, and_true] at h
        obtain ⟨rfl, rfl, rfl, rfl⟩ := h
        refine hn.two he fun va vb x => ?_
        apply NGoal.step'
        simp only [step]
        rw [load_mid, load_mid2]
        refine goal_is (C51_compare va vb) fun o ho => ?_
        cases o with
        | true => exact hn.last hd (he.append _) hf rfl
        | false => exact hn.last hd (he.append _) hf rfl
    · rename_i h
      split
      · exact (h _ _ _ _ rfl).elim
      · exact bad
  rw [if_neg h0, if_neg h0]
  clear h0
  by_cases h0 : name = nIfneq
  · rw [if_pos h0, if_pos h0]
    split
    · rename_i h
      match args, h with
      | [_, _, _, _], h =>
        simp only [embedL, List.cons.injEq, and_true] at h
        obtain ⟨rfl, rfl, rfl, rfl⟩ := h
        refine hn.two he fun va vb x => ?_
        apply NGoal.step'
        simp only [step]
        rw [load_mid, load_mid2]
        refine goal_is (C51_compare va vb) fun o ho => ?_
        cases o with
        | true => exact hn.last hd (he.append _) hf rfl
        | false => exact hn.last hd (he.append _) hf rfl
    · rename_i h
      split
      · exact (h _ _ _ _ rfl).elim
      · exact bad
  rw [if_neg h0, if_neg h0]
  clear h0
  by_cases h0 : name = nEval
  · rw [if_pos h0, if_pos h0]
    split
    · rename_i m h
      match args, h with
      | [m'], h =>
        simp only [embedL, List.cons.injEq, and_true] at h
        subst h
        refine (hn.one (E := E) (m := m') (e := []) he).bind ?_
        rintro v s' ⟨y, rfl⟩
        simp only [List.append_assoc, List.cons_append, List.nil_append]
        exact hn.last hd (he.append _) hf (load_mid _ _ _)
    · rename_i h
      split
      · exact (h _ rfl).elim
      · exact bad
  rw [if_neg h0, if_neg h0]
  clear h0
  by_cases h0 : name = nPlain
  · rw [if_pos h0, if_pos h0]
    split
    · rename_i h
      match args, h with
      | [_, _], h =>
        simp only [embedL, List.cons.injEq, and_true] at h
        obtain ⟨rfl, rfl⟩ := h
        refine hn.two he fun va vb x => ?_
        apply NGoal.step'
        simp only [step]
        rw [load_mid, load_mid2]
        refine goal_text fun name => ?_
        rw [mapPlain_embed]
        exact hn.last hd (he.append _) hf rfl
    · rename_i h
      split
      · exact (h _ _ rfl).elim
      · exact bad
  rw [if_neg h0, if_neg h0]
  have := goal_store (n := n) (rep := rep) (rest := rest) (x := []) hd (v := .cmd name args)
  simpa [embed] using this

theorem Sim.succ {n : Nat} (hn : Sim n) : Sim (n + 1) := by
  intro rep E m env d rest mem r hd he hf hr
  apply NGoal.step
  simp only [step]
  rw [hr]
  cases m with
  | plain s =>
    simp only [embed, stepEval, eval]
    exact NGoal.ok ⟨[], by simp [embed]⟩
  | seq ms =>
    simp only [embed, stepEval, eval, embedL_map_null]
    have := hn.seq hd he hf ms (rep := rep) (rest := rest) (pre := []) (e := [])
    simp only [List.length_nil, List.nil_append, List.append_nil] at this
    refine Goal.bind this ?_
    rintro vs s' ⟨y, rfl⟩
    exact Goal.ok ⟨y, by simp [embed]⟩
  | cmd name args =>
    simp only [embed, stepEval, eval]
    rcases lookup_ok he name with ⟨h1, h2⟩ | ⟨e, es, df, ds, h1, h2, h3, h4, h5⟩
    · rw [h1, h2]
      exact sim_builtin hn hd he hf
    · rw [h1, h2]
      dsimp only
      have ha : e.arity = df.arity := by unfold Entry.arity Def.arity; rw [h3.args]; cases df.params <;> rfl
      rw [embedL_length, ha]
      by_cases hl : args.length = df.arity
      · rw [if_neg (by simpa using hl), if_neg (by simpa using hl)]
        cases hp : df.params with
        | none =>
          rw [h3.args, hp]
          dsimp only
          rw [h3.body]
          exact NGoal.ok ⟨[], by simp⟩
        | some ps =>
          rw [h3.args, hp]
          dsimp only
          have hl' : ps.length = args.length := by rw [hl, Def.arity, hp]
          have hnull : ps.map (fun _ => Tree.null) = args.map fun _ => Tree.null := by
            rw [List.map_const', List.map_const', hl']
          rw [hnull]
          have := hn.args (rep := rep) (E := E) (env := env) args (rest := .eval d (argEnv mem.length ps (e :: es)) (.val (load mem e.body)) :: rest) (base := mem) (e := []) he
          simp only [List.append_nil] at this
          refine Goal.bind this ?_
          rintro vs s' ⟨y, hvs, rfl⟩
          rw [h3.body]
          have hb := bindArgs_ok (base := mem) (e := y) ps vs (by omega) (pre := []) (env := e :: es) (E := df :: ds)
          simp only [List.append_nil, List.length_nil, Nat.add_zero] at hb
          have hee : EnvOk (mem ++ embedL vs ++ y) (e :: es) (df :: ds) := by
            have : EnvOk mem (e :: es) (df :: ds) := .cons h3 h4
            have := this.append (embedL vs ++ y)
            simpa using this
          have hb := hb hee
          simp only [List.append_assoc] at hb ⊢
          refine hn.last hd hb ?_ rfl
          have hfr : ∀ (k : Nat) (ps : List Str) (env : List Entry), d.cell < k → Free env d.cell → Free (argEnv k ps env) d.cell := by
            intro k ps
            induction ps generalizing k with
            | nil => intro env _ h; exact h
            | cons p ps ih =>
              intro env hk h
              refine ih (k + 1) _ (by omega) ?_
              intro x hx hb
              rcases List.mem_cons.mp hx with rfl | hx
              · simp only [Ref.cell.injEq] at hb; omega
              · exact h x hx hb
          exact hfr _ _ _ hd fun x hx => hf x (h5 x hx)
      · rw [if_pos hl, if_pos hl]
        exact NGoal.err rfl

theorem sim (n : Nat) : Sim n := by
  induction n with
  | zero =>
    intro rep E m env d rest mem r _ _ _ _
    exact ⟨0, Nat.le_refl _, .inl ⟨_, rfl, trivial⟩⟩
  | succ n ih => exact ih.succ

/-! ### Runs -/

theorem orFail_error {α : Type} {s : State} {r : CRes α} {f : α → Next} (hs : s.error = true) (hf : ∀ a s', f a = .run s' → s'.error = true) {s' : State}
    (h : orFail s r f = .run s') : s'.error = true := by
  cases r with
  | ok a => exact hf a s' h
  | fail => cases h; rfl
  | silent => cases h; rfl
  | crash c => cases h

theorem stepBuiltin_error {s s' : State} {d env name args} (hs : s.error = true) (h : stepBuiltin s d env name args = .run s') : s'.error = true := by
  unfold stepBuiltin at h
  dsimp only at h
  repeat' split at h
  all_goals first | (cases h; exact hs) | (cases h; rfl)

theorem step_error {s s' : State} (hs : s.error = true) (h : step s = .run s') : s'.error = true := by
  unfold step at h
  cases hst : s.stack with
  | nil => rw [hst] at h; cases h
  | cons c rest =>
    rw [hst] at h
    cases c with
    | eval d env m =>
      dsimp only at h
      unfold stepEval at h
      split at h
      · simp only [hs, if_true] at h; cases h; rfl
      · cases h; exact hs
      · split at h
        · split at h
          · cases h; rfl
          · split at h
            · cases h; exact hs
            · cases h; exact hs
        · exact stepBuiltin_error (by exact hs) h
      · cases h; exact hs
    | define d n as df body env =>
      exact orFail_error (by exact hs) (fun _ _ h => orFail_error (by exact hs) (fun _ _ h => by cases h; exact hs) h) h
    | letc d n df body env => exact orFail_error (by exact hs) (fun _ _ h => by cases h; exact hs) h
    | ifc d a b t e env => exact orFail_error (by exact hs) (fun _ _ h => by cases h; exact hs) h
    | error d m => exact orFail_error (by exact hs) (fun _ _ h => by cases h; rfl) h
    | head d a =>
      refine orFail_error (by exact hs) (fun o _ h => ?_) h
      cases o with
      | none => cases h; exact hs
      | some c =>
        dsimp only at h
        split at h
        · cases h; exact hs
        · cases h
    | tail d a =>
      dsimp only at h
      split at h <;> cases h <;> first | rfl | exact hs
    | plain d f b env =>
      refine orFail_error (by exact hs) (fun o _ h => ?_) h
      dsimp only at h
      split at h <;> cases h
      exact hs

theorem steps_error (n : Nat) {s s' : State} (hs : s.error = true) (h : steps n s = .run s') : s'.error = true := by
  induction n generalizing s with
  | zero => cases h; exact hs
  | succ n ih =>
    rw [steps] at h
    cases hst : step s with
    | run s1 => rw [hst] at h; exact ih (step_error hs hst) h
    | halt => rw [hst] at h; cases h
    | crash c => rw [hst] at h; cases h

theorem steps_done (n k : Nat) {s s' : State} (hk : n < k) (h : steps n s = .run s') (he : s'.stack = []) : steps k s = .halt := by
  obtain ⟨j, rfl⟩ : ∃ j, k = n + (j + 1) := ⟨k - n - 1, by omega⟩
  rw [steps_add, h]
  simp [steps, step, he]

theorem steps_prefix (n k : Nat) {s s' : State} (hk : k ≤ n) (h : steps n s = .run s') : ∃ s1, steps k s = .run s1 ∧ steps (n - k) s1 = .run s' := by
  obtain ⟨j, rfl⟩ : ∃ j, n = k + j := ⟨n - k, by omega⟩
  rw [steps_add] at h
  cases hs : steps k s with
  | run s1 => rw [hs] at h; exact ⟨s1, rfl, by rwa [Nat.add_sub_cancel_left]⟩
  | halt => rw [hs] at h; cases h
  | crash c => rw [hs] at h; cases h

/-- A run that ends is what is hit. -/
theorem hits_end {n k : Nat} {s s' : State} {P : State → Prop} (h : Hits k s P) (hr : steps n s = .run s') (he : s'.stack = []) :
    k ≤ n ∧ ∃ i s1, steps i s = .run s1 ∧ steps (n - i) s1 = .run s' ∧ P s1 := by
  obtain ⟨i, hi, ⟨s1, h1, h2⟩ | h⟩ := h
  · have : i ≤ n := by
      rcases Nat.lt_or_ge n i with hlt | hge
      · rw [steps_done n i hlt hr he] at h1; cases h1
      · exact hge
    obtain ⟨s2, h3, h4⟩ := steps_prefix n i this hr
    rw [h1] at h3
    cases h3
    exact ⟨by omega, i, s1, h1, h4, h2⟩
  · rcases Nat.lt_or_ge n i with hlt | hge
    · rw [steps_done n i hlt hr he] at h; cases h
    · obtain ⟨s2, h3, _⟩ := steps_prefix n i hge hr
      rw [h] at h3; cases h3

theorem sim_start (n : Nat) (m : Markup) : Goal n (start m) (eval n [] m) fun v s' => ∃ x, s' = St false [] (embed v :: x) := by
  refine (sim n false [] m [] ⟨0, []⟩ [] [.null] (.val (embed m)) (by simp) .nil (fun e he => by cases he) rfl).mono ?_
  rintro v s' ⟨x, rfl⟩
  exact ⟨x, rfl⟩

/-- C50: what the program returns is the meaning of the document. -/
theorem C50_sound (m : Markup) (t : Tree) (h : Returns m t) : ∃ n v, eval n [] m = .ok v ∧ t = embed v := by
  obtain ⟨n, s, h1, h2, h3, h4⟩ := h
  have hg := sim_start (n + 1) m
  cases hev : eval (n + 1) [] m with
  | ok v =>
    rw [hev] at hg
    obtain ⟨_, i, s1, _, h6, x, rfl⟩ := hits_end hg h1 h2
    refine ⟨n + 1, v, hev, ?_⟩
    cases hni : n - i with
    | zero => rw [hni] at h6; cases h6; simpa using h4.symm
    | succ j => rw [hni] at h6; simp [steps, step] at h6
  | err =>
    rw [hev] at hg
    obtain ⟨_, i, s1, _, h6, h7⟩ := hits_end hg h1 h2
    rw [steps_error _ h7 h6] at h3
    cases h3
  | more =>
    rw [hev] at hg
    have := (hits_end hg h1 h2).1
    omega

/-- C50: if the document has a meaning, the program returns it (unless it is stopped by the assertion
in `TextOfMarkup`, see C52). -/
theorem C50_complete (m v : Markup) (n : Nat) (h : eval n [] m = .ok v) : Returns m (embed v) ∨ Crashes m .assertion := by
  have hg := sim_start n m
  rw [h] at hg
  obtain ⟨k, _, ⟨s', h1, x, rfl⟩ | h⟩ := hg
  · exact .inl ⟨k, _, h1, rfl, rfl, rfl⟩
  · exact .inr ⟨k, h⟩

/-- C50: if the program reports failure, evaluation of the document meets an error. -/
theorem C50_failure (m : Markup) (h : Fails m) : ∃ n, eval n [] m = .err := by
  obtain ⟨n, s, h1, h2, h3⟩ := h
  have hg := sim_start (n + 1) m
  cases hev : eval (n + 1) [] m with
  | ok v =>
    rw [hev] at hg
    obtain ⟨_, i, s1, _, h6, x, rfl⟩ := hits_end hg h1 h2
    cases hni : n - i with
    | zero => rw [hni] at h6; cases h6; cases h3
    | succ j => rw [hni] at h6; simp [steps, step] at h6
  | err => exact ⟨_, hev⟩
  | more =>
    rw [hev] at hg
    have := (hits_end hg h1 h2).1
    omega

/-- C50: if evaluation of the document meets an error, the program returns nothing. -/
theorem C50_error (m : Markup) (n : Nat) (h : eval n [] m = .err) (t : Tree) : ¬ Returns m t := by
  rintro ⟨k, s, h1, h2, h3, _⟩
  have hg := sim_start n m
  rw [h] at hg
  obtain ⟨_, i, s1, _, h6, h7⟩ := hits_end hg h1 h2
  rw [steps_error _ h7 h6] at h3
  cases h3

/-- `@define[f][x][@x@x][@f[a]]` is `aa`. -/
example : Returns (.cmd nDefine [.plain ['f'], .plain ['x'], .seq [.cmd ['x'] [], .cmd ['x'] []], .cmd ['f'] [.plain ['a']]])
    (embed (.seq [.plain ['a'], .plain ['a']])) := by
  refine ⟨9, _, rfl, rfl, rfl, rfl⟩

end Verif.Fbld
