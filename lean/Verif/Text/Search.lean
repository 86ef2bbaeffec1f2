import Verif.Text.Spec
import Mathlib.Tactic.Common
/- Theorems: C29 (package search), C30 (build dependency files), C55 (module files). -/
namespace Verif.Text
open Spec

/-! ### C29 -/

/-- What the search visits from offset `s`: the components, by recursion over the text. -/
def pieces : Str → Str → List Str
  | cur, [] => [cur]
  | cur, b :: t => if b = ch ':' then (if t = [] then [cur] else cur :: pieces [] t) else pieces (cur ++ [b]) t

theorem pieces_ne (cur t : Str) : pieces cur t ≠ [] := by
  induction t generalizing cur with
  | nil => simp [pieces]
  | cons b t ih =>
    unfold pieces
    split
    · split <;> simp
    · exact ih _

theorem pieces_components (cur t : Str) (hc : ch ':' ∉ cur) :
    (∀ c ∈ pieces cur t, ch ':' ∉ c) ∧
    [ch ':'].intercalate (pieces cur t) = cur ++ stripColon t := by
  induction t generalizing cur with
  | nil => simp [pieces, hc, stripColon, List.intercalate]
  | cons b t ih =>
    unfold pieces
    have hstrip : t ≠ [] → stripColon (b :: t) = b :: stripColon t := by
      intro ht
      cases t with
      | nil => exact absurd rfl ht
      | cons c t =>
        simp only [stripColon, List.getLast?_cons_cons, List.dropLast_cons_cons]
        split <;> rfl
    split
    · rename_i hb
      subst hb
      split
      · rename_i ht
        subst ht
        simp [hc, stripColon, List.intercalate]
      · rename_i ht
        obtain ⟨h1, h2⟩ := ih [] (by simp)
        refine ⟨?_, ?_⟩
        · intro c hm
          simp only [List.mem_cons] at hm
          rcases hm with rfl | hm
          · exact hc
          · exact h1 c hm
        · have hne := pieces_ne [] t
          cases hp : pieces [] t with
          | nil => exact absurd hp hne
          | cons p ps =>
            rw [hp] at h2
            have : [ch ':'].intercalate (cur :: p :: ps) =
                cur ++ ch ':' :: [ch ':'].intercalate (p :: ps) := by
              simp [List.intercalate]
            rw [this, h2, hstrip ht]
            simp
    · rename_i hb
      have hc' : ch ':' ∉ cur ++ [b] := by
        simp only [List.mem_append, List.mem_singleton, not_or]
        exact ⟨hc, fun e => hb e.symm⟩
      obtain ⟨h1, h2⟩ := ih _ hc'
      refine ⟨h1, ?_⟩
      rw [h2]
      cases t with
      | nil => simp [stripColon, hb]
      | cons c t => rw [hstrip (by simp)]; simp

theorem strchr_none {c : Byte} {t : Str} (h : strchr c t = none) : c ∉ t := by
  induction t with
  | nil => simp
  | cons b t ih =>
    unfold strchr at h
    split at h
    · cases h
    · rename_i hb
      simp only [Option.map_eq_none_iff] at h
      simp only [List.mem_cons, not_or]
      exact ⟨fun e => hb e.symm, ih h⟩

theorem strchr_some {c : Byte} {t : Str} {n : Nat} (h : strchr c t = some n) :
    c ∉ t.take n ∧ t = t.take n ++ c :: t.drop (n + 1) ∧ n < t.length := by
  induction t generalizing n with
  | nil => cases h
  | cons b t ih =>
    unfold strchr at h
    split at h
    · rename_i hb
      cases h
      simp [hb]
    · rename_i hb
      simp only [Option.map_eq_some_iff] at h
      obtain ⟨m, hm, rfl⟩ := h
      obtain ⟨h1, h2, h3⟩ := ih hm
      refine ⟨?_, ?_, by simp; omega⟩
      · simp only [List.take_succ_cons, List.mem_cons, not_or]
        exact ⟨fun e => hb e.symm, h1⟩
      · simp only [List.take_succ_cons, List.drop_succ_cons, List.cons_append, List.cons.injEq,
          true_and]
        exact h2

theorem pieces_no_colon {t : Str} (cur : Str) (h : ch ':' ∉ t) : pieces cur t = [cur ++ t] := by
  induction t generalizing cur with
  | nil => simp [pieces]
  | cons b t ih =>
    simp only [List.mem_cons, not_or] at h
    unfold pieces
    rw [if_neg (fun e => h.1 e.symm), ih _ h.2]
    simp

theorem pieces_colon {t u : Str} (cur : Str) (h : ch ':' ∉ t) :
    pieces cur (t ++ ch ':' :: u) = if u = [] then [cur ++ t] else (cur ++ t) :: pieces [] u := by
  induction t generalizing cur with
  | nil => simp [pieces]
  | cons b t ih =>
    simp only [List.mem_cons, not_or] at h
    rw [List.cons_append]
    conv => lhs; unfold pieces
    rw [if_neg (fun e => h.1 e.symm), ih _ h.2]
    simp

theorem find_one (access : Str → Bool) (package dir : Str) (rest : List Str) :
    firstExisting access ((dir :: rest).map (· ++ ch '/' :: package)) =
    (findPackageAt access package dir).or (firstExisting access (rest.map (· ++ ch '/' :: package))) := by
  simp only [firstExisting, findPackageAt, List.map_cons, List.find?_cons]
  have e : dir ++ [ch '/'] ++ package = dir ++ ch '/' :: package := by simp
  rw [e]
  cases access (dir ++ ch '/' :: package) <;> simp

theorem findPackageLoop_spec (access : Str → Bool) (package path : Str) (s : Nat)
    (hs : s < path.length ∨ s = 0) :
    findPackageLoop access package path s =
      firstExisting access ((pieces [] (path.drop s)).map (· ++ ch '/' :: package)) := by
  fun_induction findPackageLoop access package path s with
  | case1 s n found hf =>
    have hp : ∃ rest, pieces [] (path.drop s) = (path.drop s).take n :: rest := by
      simp only [n]
      split
      · rename_i e he
        obtain ⟨h1, h2, _⟩ := strchr_some he
        conv => enter [1, rest, 1]; rw [h2]
        rw [pieces_colon [] h1]
        split
        · exact ⟨[], rfl⟩
        · exact ⟨_, rfl⟩
      · rename_i he
        rw [pieces_no_colon [] (strchr_none he)]
        exact ⟨[], by rw [List.take_of_length_le (by simp)]; rfl⟩
    obtain ⟨rest, hp⟩ := hp
    rw [hp, find_one, hf]
    simp
  | case2 s n hf hlt ih =>
    have ih := ih (.inl hlt)
    rw [ih]
    have hp : pieces [] (path.drop s) = (path.drop s).take n :: pieces [] (path.drop (s + n + 1)) := by
      simp only [n] at hlt ⊢
      split
      · rename_i e he
        rw [he] at hlt
        simp only at hlt
        obtain ⟨h1, h2, _⟩ := strchr_some he
        conv => lhs; rw [h2]
        rw [pieces_colon [] h1, List.drop_drop, if_neg]
        · rfl
        · rw [List.drop_eq_nil_iff]; omega
      · rename_i he
        rw [he] at hlt
        simp only at hlt
        omega
    rw [hp, find_one, hf]
    simp
  | case3 s n hf hlt =>
    have hp : pieces [] (path.drop s) = [(path.drop s).take n] := by
      simp only [n] at hlt ⊢
      split
      · rename_i e he
        rw [he] at hlt
        simp only at hlt
        obtain ⟨h1, h2, _⟩ := strchr_some he
        conv => lhs; rw [h2]
        rw [pieces_colon [] h1, List.drop_drop, if_pos]
        · rfl
        · rw [List.drop_eq_nil_iff]; omega
      · rename_i he
        rw [pieces_no_colon [] (strchr_none he)]
        rw [List.take_of_length_le (by simp)]; rfl
    rw [hp, find_one, hf]
    simp [firstExisting]

/-- C29. FbleFindPackage looks for `dir/package` with `dir` ranging over the colon separated
components of FBLE_PACKAGE_PATH from left to right (one trailing colon is ignored), then over the
default path, and returns the first that exists. -/
theorem C29_find_package (access : Str → Bool) (dflt package : Str) (env : Str) :
    ∃ comps, Components (stripColon env) comps ∧
      findPackage access dflt (some env) package =
        firstExisting access ((comps ++ [dflt]).map fun dir => dir ++ ch '/' :: package) := by
  refine ⟨pieces [] env, ⟨pieces_ne _ _, ?_⟩, ?_⟩
  · have := pieces_components [] env (by simp)
    simpa using this
  · have h := findPackageLoop_spec access package env 0 (.inr rfl)
    rw [List.drop_zero] at h
    have e : findPackageAt access package dflt =
        firstExisting access ([dflt].map fun dir => dir ++ ch '/' :: package) := by
      rw [find_one]; simp [firstExisting]
    unfold findPackage
    simp only [h, e, firstExisting, List.map_append, List.find?_append]
    cases List.find? access (List.map (fun x => x ++ ch '/' :: package) (pieces [] env)) <;> rfl

/-- The components are determined by the path. -/
theorem C29_components_unique (s : Str) (c c' : List Str) (h : Components s c) (h' : Components s c') :
    c = c' := by
  obtain ⟨h1, h2, h3⟩ := h
  obtain ⟨h1', h2', h3'⟩ := h'
  rw [← h3'] at h3
  clear h3'
  have cut : ∀ (a a' u u' : Str), ch ':' ∉ a → ch ':' ∉ a' → a ++ ch ':' :: u = a' ++ ch ':' :: u' →
      a = a' ∧ u = u' := by
    intro a
    induction a with
    | nil =>
      intro a' u u' ha ha' h
      cases a' with
      | nil => exact ⟨rfl, by simpa using h⟩
      | cons b a' => simp at h ha'; exact absurd h.1 ha'.1
    | cons b a ih =>
      intro a' u u' ha ha' h
      cases a' with
      | nil => simp at h ha; exact absurd h.1.symm ha.1
      | cons b' a' =>
        simp only [List.mem_cons, not_or] at ha ha'
        simp only [List.cons_append, List.cons.injEq] at h
        obtain ⟨rfl, h⟩ := h
        obtain ⟨rfl, rfl⟩ := ih a' u u' ha.2 ha'.2 h
        exact ⟨rfl, rfl⟩
  have two : ∀ (x y : Str) (ys : List Str), [ch ':'].intercalate (x :: y :: ys) =
      x ++ ch ':' :: [ch ':'].intercalate (y :: ys) := by
    intro x y ys; simp [List.intercalate]
  have one : ∀ (x : Str), [ch ':'].intercalate [x] = x := by
    intro x; simp [List.intercalate]
  induction c generalizing c' with
  | nil => exact absurd rfl h1
  | cons x xs ih =>
    cases c' with
    | nil => exact absurd rfl h1'
    | cons x' xs' =>
      cases xs with
      | nil =>
        cases xs' with
        | nil => rw [one, one] at h3; rw [h3]
        | cons y' ys' =>
          rw [one, two] at h3
          have := h2 x (by simp)
          rw [h3] at this
          simp at this
      | cons y ys =>
        cases xs' with
        | nil =>
          rw [one, two] at h3
          have := h2' x' (by simp)
          rw [← h3] at this
          simp at this
        | cons y' ys' =>
          rw [two, two] at h3
          obtain ⟨rfl, h3'⟩ := cut _ _ _ _ (h2 x (by simp)) (h2' x' (by simp)) h3
          rw [ih (y' :: ys') (by simp) (fun c hc => h2 c (List.mem_cons_of_mem _ hc)) h3' (by simp)
            (fun c hc => h2' c (List.mem_cons_of_mem _ hc))]

/-- C29. Without FBLE_PACKAGE_PATH only the default path is used. -/
theorem C29_no_env (access : Str → Bool) (dflt package : Str) :
    findPackage access dflt none package =
      firstExisting access [dflt ++ ch '/' :: package] := by
  have := find_one access package dflt []
  simp only [List.map_cons, List.map_nil] at this
  rw [this]
  simp [findPackage, firstExisting]

/-- A concrete search: the path `x::y:`, package `p`, where only `y/p` and the default exist. -/
example : findPackage (fun d => d = [ch 'y', ch '/', ch 'p'] || d = [ch 'd', ch '/', ch 'p'])
    [ch 'd'] (some [ch 'x', ch ':', ch ':', ch 'y', ch ':']) [ch 'p'] = some [ch 'y', ch '/', ch 'p'] := by
  obtain ⟨comps, hc, h⟩ := C29_find_package
    (fun d => d = [ch 'y', ch '/', ch 'p'] || d = [ch 'd', ch '/', ch 'p'])
    [ch 'd'] [ch 'p'] [ch 'x', ch ':', ch ':', ch 'y', ch ':']
  have : comps = [[ch 'x'], [], [ch 'y']] :=
    C29_components_unique _ _ _ hc ⟨by simp, by decide, by decide⟩
  rw [h, this]
  decide

/-! ### C55: module files -/

theorem findAt_eq (access : Str → Bool) (root : Str) (path : Path) :
    let file := root ++ path.flatMap (fun n => ch '/' :: n.str) ++ ['.', 'f', 'b', 'l', 'e'].map ch
    findAt access root path =
      if (∀ n ∈ path, ch '/' ∉ n.str) ∧ access file = true then (some file, [file]) else (none, []) := by
  have h1 : ∀ (p : Path) (s : Str), p.foldl (fun s n => (s ++ [ch '/']) ++ n.str) s =
      s ++ p.flatMap (fun n => ch '/' :: n.str) := by
    intro p
    induction p with
    | nil => simp
    | cons n p ih =>
      intro s
      rw [List.foldl_cons, ih, List.flatMap_cons]
      simp only [List.append_assoc, List.cons_append, List.nil_append]
  simp only [findAt, h1]
  split
  · rename_i h
    rw [if_neg]
    simp only [List.any_eq_true, List.contains_iff_mem] at h
    obtain ⟨n, hn, h⟩ := h
    exact fun e => e.1 n hn h
  · rename_i h
    simp only [List.any_eq_true, List.contains_iff_mem, not_exists, not_and] at h
    split
    · rename_i ha; rw [if_pos ⟨h, ha⟩]
    · rename_i ha; rw [if_neg]; exact fun e => ha e.2

/-- C55. `Find` returns `root/a/b/c.fble` for the first root of the search path for which that file
exists, and nothing if no root has it or if some name of the path contains a slash; the build
dependencies get exactly the file found. -/
theorem C55_find (access : Str → Bool) (path : Path) (roots : List Str) :
    let file := fun root : Str =>
      root ++ path.flatMap (fun n => ch '/' :: n.str) ++ ['.', 'f', 'b', 'l', 'e'].map ch
    (find access path roots).1 =
      (if ∀ n ∈ path, ch '/' ∉ n.str then (roots.map file).find? access else none) ∧
    (find access path roots).2 = (find access path roots).1.toList := by
  intro file
  induction roots with
  | nil => simp [find]
  | cons root roots ih =>
    have h := findAt_eq access root path
    simp only at h
    unfold find
    rw [h]
    by_cases hn : ∀ n ∈ path, ch '/' ∉ n.str
    · cases ha : access (file root) with
      | true =>
        rw [if_pos ⟨hn, rfl⟩, if_pos hn]
        simp only [List.map_cons, List.find?_cons, ha, Option.toList_some]
        exact ⟨rfl, trivial⟩
      | false =>
        rw [if_neg (by simp)]
        rw [if_pos hn] at ih ⊢
        simp only [List.map_cons, List.find?_cons, ha, List.nil_append]
        exact ih
    · rw [if_neg (fun e => hn e.1), if_neg hn]
      rw [if_neg hn] at ih
      simp only [List.nil_append]
      exact ih

/-- Names without slashes are determined by their slash separated text. -/
theorem slash_inj (p q : Path) (h1 : ∀ n ∈ p, ch '/' ∉ n.str) (h2 : ∀ n ∈ q, ch '/' ∉ n.str)
    (hsp : ∀ n ∈ p, n.space = .normal) (hsq : ∀ n ∈ q, n.space = .normal)
    (e : p.flatMap (fun n => ch '/' :: n.str) = q.flatMap (fun n => ch '/' :: n.str)) : p = q := by
  induction p generalizing q with
  | nil =>
    cases q with
    | nil => rfl
    | cons m q => simp at e
  | cons n p ih =>
    cases q with
    | nil => simp at e
    | cons m q =>
      simp only [List.flatMap_cons, List.cons_append, List.cons.injEq, true_and] at e
      have cut : ∀ (a a' u u' : Str), ch '/' ∉ a → ch '/' ∉ a' → (∀ b ∈ u.head?, b = ch '/') →
          (∀ b ∈ u'.head?, b = ch '/') → a ++ u = a' ++ u' → a = a' ∧ u = u' := by
        intro a
        induction a with
        | nil =>
          intro a' u u' ha ha' hu hu' h
          cases a' with
          | nil => exact ⟨rfl, by simpa using h⟩
          | cons b a' =>
            simp only [List.nil_append, List.cons_append] at h
            have := hu b (by rw [h]; rfl)
            simp [this] at ha'
        | cons b a ih =>
          intro a' u u' ha ha' hu hu' h
          cases a' with
          | nil =>
            simp only [List.nil_append, List.cons_append] at h
            have := hu' b (by rw [← h]; rfl)
            simp [this] at ha
          | cons b' a' =>
            simp only [List.mem_cons, not_or] at ha ha'
            simp only [List.cons_append, List.cons.injEq] at h
            obtain ⟨rfl, h⟩ := h
            obtain ⟨rfl, rfl⟩ := ih a' u u' ha.2 ha'.2 hu hu' h
            exact ⟨rfl, rfl⟩
      have hd : ∀ p : Path, ∀ b ∈ (p.flatMap (fun n => ch '/' :: n.str)).head?, b = ch '/' := by
        intro p
        cases p with
        | nil => simp
        | cons n p => rintro b ⟨⟩; rfl
      obtain ⟨e1, e2⟩ := cut _ _ _ _ (h1 n (by simp)) (h2 m (by simp)) (hd p) (hd q) e
      have hnm : n = m := by
        have a := hsp n (by simp)
        have b := hsq m (by simp)
        cases n; cases m
        simp only at a b e1
        rw [a, b, e1]
      rw [hnm, ih q (fun n hn => h1 n (by simp [hn])) (fun n hn => h2 n (by simp [hn]))
        (fun n hn => hsp n (by simp [hn])) (fun n hn => hsq n (by simp [hn])) e2]

/-- C55. Under one root, different module paths are never looked for in the same file. -/
theorem C55_distinct_files (access : Str → Bool) (root : Str) (p q : Path) (f : Str)
    (hp : (findAt access root p).1 = some f) (hq : (findAt access root q).1 = some f)
    (hsp : ∀ n ∈ p, n.space = .normal) (hsq : ∀ n ∈ q, n.space = .normal) : p = q := by
  have hp' := findAt_eq access root p
  have hq' := findAt_eq access root q
  simp only at hp' hq'
  rw [hp'] at hp
  rw [hq'] at hq
  split at hp
  case isFalse => cases hp
  split at hq
  case isFalse => cases hq
  rename_i h1 h2
  simp only [Option.some.injEq] at hp hq
  rw [← hq] at hp
  have e : p.flatMap (fun n => ch '/' :: n.str) = q.flatMap (fun n => ch '/' :: n.str) := by
    simpa using hp
  exact slash_inj p q h1.1 h2.1 hsp hsq e

/-! ### C30 -/

/-- Groups of dependencies put on continuation lines. -/
def contLines (groups : List (List Str)) : Str :=
  groups.flatMap fun g => [ch ' ', ch '\\', ch '\n'] ++ g.flatMap fun d => ch ' ' :: d

theorem saveLoop_layout (cols : Nat) (deps : List Str) :
    ∃ g0 groups, deps = g0 ++ groups.flatten ∧
      saveLoop cols deps = (g0.flatMap fun d => ch ' ' :: d) ++ contLines groups ∧
      (g0 ≠ [] → cols + (g0.flatMap fun d => ch ' ' :: d).length ≤ 80) ∧
      ∀ g ∈ groups, g ≠ [] ∧ (g.length = 1 ∨ (g.flatMap fun d => ch ' ' :: d).length ≤ 79) := by
  induction deps generalizing cols with
  | nil => exact ⟨[], [], rfl, rfl, by simp, by simp⟩
  | cons d deps ih =>
    unfold saveLoop
    simp only
    split
    · rename_i hlt
      obtain ⟨g0, groups, h1, h2, h3, h4⟩ := ih (1 + (1 + d.length))
      refine ⟨[], (d :: g0) :: groups, by simp [h1], ?_, by simp, ?_⟩
      · rw [h2]; simp [contLines]
      · intro g hg
        simp only [List.mem_cons] at hg
        rcases hg with rfl | hg
        · refine ⟨by simp, ?_⟩
          by_cases hg0 : g0 = []
          · left; simp [hg0]
          · right
            have := h3 hg0
            rw [List.flatMap_cons, List.length_append, List.length_cons]
            omega
        · exact h4 g hg
    · rename_i hlt
      obtain ⟨g0, groups, h1, h2, h3, h4⟩ := ih (cols + (1 + d.length))
      refine ⟨d :: g0, groups, by simp [h1], ?_, ?_, h4⟩
      · rw [h2]; simp
      · intro _
        rw [List.flatMap_cons, List.length_append, List.length_cons]
        by_cases hg0 : g0 = []
        · simp [hg0]; omega
        · have := h3 hg0
          omega

/-- C30, layout. The output is the target and colon followed by some of the dependencies, then
continuation lines with the rest, in order; the text of the first line fits 80 columns unless the
target is alone on it, and the text of every further line fits 80 columns unless it holds a single
name. (The ` \` that ends a continued line comes on top of that.) -/
theorem C30_layout (target : Str) (deps : List Str) :
    ∃ g0 groups, deps = g0 ++ groups.flatten ∧
      saveBuildDeps target deps =
        target ++ [ch ':'] ++ (g0.flatMap fun d => ch ' ' :: d) ++ contLines groups ++ [ch '\n'] ∧
      (g0 ≠ [] → (target ++ [ch ':'] ++ (g0.flatMap fun d => ch ' ' :: d)).length ≤ 80) ∧
      ∀ g ∈ groups, g ≠ [] ∧ (g.length = 1 ∨ (g.flatMap fun d => ch ' ' :: d).length ≤ 80) := by
  obtain ⟨g0, groups, h1, h2, h3, h4⟩ := saveLoop_layout (1 + target.length) deps
  refine ⟨g0, groups, h1, ?_, ?_, fun g hg => ⟨(h4 g hg).1, (h4 g hg).2.imp id (by omega)⟩⟩
  · simp [saveBuildDeps, h2]
  · intro h
    have := h3 h
    simp only [List.length_append, List.length_singleton]
    omega

theorem joinLines_append {a t : Str} (h : ch '\\' ∉ a) : joinLines (a ++ t) = a ++ joinLines t := by
  induction a with
  | nil => rfl
  | cons b a ih =>
    simp only [List.mem_cons, not_or] at h
    have hb : ¬ (b = ch '\\') := fun e => h.1 e.symm
    rw [List.cons_append]
    cases hat : a ++ t with
    | nil =>
      have := List.append_eq_nil_iff.mp hat
      simp [this, joinLines]
    | cons c u =>
      conv => lhs; unfold joinLines
      rw [if_neg (fun e => hb e.1), ← hat, ih h.2]
      rfl

theorem words_word {w : Str} (cur t : Str) (h : ∀ b ∈ w, b ≠ ch ' ' ∧ b ≠ ch '\n') :
    wordsAux cur (w ++ t) = wordsAux (cur ++ w) t := by
  induction w generalizing cur with
  | nil => simp
  | cons b w ih =>
    have hb := h b (by simp)
    rw [List.cons_append]
    conv => lhs; unfold wordsAux
    rw [if_neg (by tauto), ih _ fun b hb => h b (by simp [hb])]
    simp

theorem words_save (cols : Nat) (deps : List Str) (cur : Str) (hcur : cur ≠ [])
    (hd : ∀ d ∈ deps, d ≠ [] ∧ ∀ b ∈ d, b ≠ ch ' ' ∧ b ≠ ch '\n' ∧ b ≠ ch '\\') :
    wordsAux cur (joinLines (saveLoop cols deps ++ [ch '\n'])) = cur :: deps := by
  induction deps generalizing cols cur with
  | nil =>
    simp [saveLoop, joinLines, wordsAux, hcur]
  | cons d deps ih =>
    obtain ⟨hd1, hd2⟩ := hd d (by simp)
    have hbs : ch '\\' ∉ d := fun h => (hd2 _ h).2.2 rfl
    have hw : ∀ b ∈ d, b ≠ ch ' ' ∧ b ≠ ch '\n' := fun b hb => ⟨(hd2 b hb).1, (hd2 b hb).2.1⟩
    have hds := fun d' hd' => hd d' (List.mem_cons_of_mem d hd')
    have hsp : ch '\\' ∉ ch ' ' :: d := by
      simp only [List.mem_cons, not_or]
      exact ⟨by decide, hbs⟩
    have step : ∀ cols' cur', wordsAux cur' (joinLines (([ch ' '] ++ d ++ saveLoop cols' deps) ++ [ch '\n'])) =
        (if cur' = [] then [] else [cur']) ++ d :: deps := by
      intro cols' cur'
      have e : ([ch ' '] ++ d ++ saveLoop cols' deps) ++ [ch '\n'] =
          (ch ' ' :: d) ++ (saveLoop cols' deps ++ [ch '\n']) := by simp
      rw [e, joinLines_append hsp, List.cons_append]
      conv => lhs; unfold wordsAux
      rw [if_pos (.inl rfl), words_word [] _ hw, List.nil_append, ih cols' d hd1 hds]
    unfold saveLoop
    simp only
    split
    · have e : ([ch ' ', ch '\\', ch '\n'] ++ ([ch ' '] ++ d) ++ saveLoop (1 + (1 + d.length)) deps) ++
          [ch '\n'] = [ch ' '] ++ (ch '\\' :: ch '\n' ::
            (([ch ' '] ++ d ++ saveLoop (1 + (1 + d.length)) deps) ++ [ch '\n'])) := by simp
      have e1 : ∀ t : Str, joinLines (ch '\\' :: ch '\n' :: t) = ch ' ' :: joinLines t := by
        intro t; conv => lhs; unfold joinLines
        simp
      rw [e, joinLines_append (by decide), e1]
      have e2 : ∀ (t : Str), wordsAux cur ([ch ' '] ++ ch ' ' :: t) = cur :: wordsAux [] t := by
        intro t
        simp [wordsAux, hcur]
      rw [e2, step]
      simp
    · rw [step]
      simp [hcur]

/-- C30. Read as a make rule (a backslash at the end of a line joins it with the next one, words
are separated by blanks), the output is the target with its colon followed by exactly the given
dependencies, in order. The names must be nonempty and without blanks, newlines and backslashes:
FbleSaveBuildDeps does not escape them (see `C30_unescaped_violated`). -/
theorem C30_rule (target : Str) (deps : List Str)
    (ht : ∀ b ∈ target, b ≠ ch ' ' ∧ b ≠ ch '\n' ∧ b ≠ ch '\\')
    (hd : ∀ d ∈ deps, d ≠ [] ∧ ∀ b ∈ d, b ≠ ch ' ' ∧ b ≠ ch '\n' ∧ b ≠ ch '\\') :
    ruleWords (saveBuildDeps target deps) = (target ++ [ch ':']) :: deps := by
  have e : saveBuildDeps target deps =
      (target ++ [ch ':']) ++ (saveLoop (1 + target.length) deps ++ [ch '\n']) := by
    simp [saveBuildDeps]
  have h1 : ch '\\' ∉ target ++ [ch ':'] := by
    simp only [List.mem_append, not_or]
    exact ⟨fun h => (ht _ h).2.2 rfl, by decide⟩
  have h2 : ∀ b ∈ target ++ [ch ':'], b ≠ ch ' ' ∧ b ≠ ch '\n' := by
    intro b hb
    simp only [List.mem_append, List.mem_singleton] at hb
    rcases hb with hb | rfl
    · exact ⟨(ht b hb).1, (ht b hb).2.1⟩
    · exact ⟨by decide, by decide⟩
  rw [ruleWords, e, joinLines_append h1, words_word [] _ h2, List.nil_append]
  exact words_save _ deps _ (by simp) hd

/-- A file name with a blank is not escaped: the rule then lists two other files. -/
theorem C30_unescaped_violated :
    ruleWords (saveBuildDeps [ch 't'] [[ch 'a', ch ' ', ch 'b']]) =
      [[ch 't', ch ':'], [ch 'a'], [ch 'b']] := by decide

example : ruleWords (saveBuildDeps [ch 't'] (List.replicate 50 [ch 'a', ch 'b'])) =
    [ch 't', ch ':'] :: List.replicate 50 [ch 'a', ch 'b'] := by
  have : [ch 't', ch ':'] = [ch 't'] ++ [ch ':'] := rfl
  rw [this]
  apply C30_rule
  · decide
  · intro d hd
    rw [List.mem_replicate] at hd
    rw [hd.2]
    exact ⟨by decide, by decide⟩

end Verif.Text
