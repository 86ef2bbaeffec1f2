import Verif.Fbld.Text
/-!
# Comparing text, first character and rest (C51)
-/
namespace Verif.Fbld

/-- A character, a command or a missing pointer. -/
inductive Item where
  | chr (c : Char)
  | cmd
  | null

mutual
def titems : Tree → List Item
  | .null => [.null]
  | .plain s => s.map .chr
  | .cmd _ _ => [.cmd]
  | .seq ts => titemsL ts
def titemsL : List Tree → List Item
  | [] => []
  | t :: ts => titems t ++ titemsL ts
end

/-- `HeadOf` on the list of items. -/
def headItems : List Item → CRes (Option Char)
  | [] => .ok none
  | .chr c :: _ => .ok (some c)
  | .cmd :: _ => .fail
  | .null :: _ => .silent

mutual
theorem headOf_eq : (t : Tree) → headOf t = headItems (titems t)
  | .null => rfl
  | .plain [] => rfl
  | .plain (_ :: _) => rfl
  | .cmd _ _ => rfl
  | .seq ts => by simp only [headOf, titems]; exact headOfL_eq ts
theorem headOfL_eq : (ts : List Tree) → headOfL ts = headItems (titemsL ts)
  | [] => rfl
  | t :: ts => by
    simp only [headOfL, titemsL]
    rw [headOf_eq t]
    cases h : titems t with
    | nil => exact headOfL_eq ts
    | cons i is => cases i <;> rfl
end

/-- What `TailOf` must do on a tree with the given items. -/
def TailSpec (l : List Item) (r : CRes (Option Tree)) : Prop :=
  match l with
  | [] => r = .ok none
  | .chr _ :: l => ∃ u, r = .ok (some u) ∧ titems u = l
  | .cmd :: _ => r = .fail
  | .null :: _ => r = .crash .nullDeref

mutual
theorem tailOf_spec : (t : Tree) → TailSpec (titems t) (tailOf t)
  | .null => rfl
  | .plain [] => rfl
  | .plain (_ :: s) => ⟨.plain s, rfl, rfl⟩
  | .cmd _ _ => rfl
  | .seq ts => by simp only [tailOf, titems]; exact tailOfL_spec ts
theorem tailOfL_spec : (ts : List Tree) → TailSpec (titemsL ts) (tailOfL ts)
  | [] => rfl
  | t :: ts => by
    have h := tailOf_spec t
    simp only [tailOfL, titemsL]
    cases hi : titems t with
    | nil => rw [hi] at h; rw [show tailOf t = .ok none from h]; exact tailOfL_spec ts
    | cons i is =>
      rw [hi] at h
      cases i with
      | chr c =>
        obtain ⟨u, h1, h2⟩ := h
        rw [h1]
        cases ts with
        | nil => exact ⟨u, rfl, by rw [h2]; simp [titemsL]⟩
        | cons t' ts' => exact ⟨_, rfl, by simp only [titems, titemsL]; rw [h2]; rfl⟩
      | cmd => rw [show tailOf t = .fail from h]; rfl
      | null => rw [show tailOf t = .crash .nullDeref from h]; rfl
end

/-- `Eq` on lists of items. -/
def sameItems : List Item → List Item → CRes Bool
  | .cmd :: _, _ => .fail
  | .null :: _, _ => .silent
  | _, .cmd :: _ => .fail
  | _, .null :: _ => .silent
  | [], [] => .ok true
  | [], .chr _ :: _ => .ok false
  | .chr _ :: _, [] => .ok false
  | .chr a :: xs, .chr b :: ys => if a = b then sameItems xs ys else .ok false

theorem eqLoop_eq (a b : Tree) : eqLoop a b = sameItems (titems a) (titems b) := by
  generalize hn : chars a = n
  induction n using Nat.strongRecOn generalizing a b with
  | ind n ih =>
  rw [eqLoop.eq_def, headOf_eq a, headOf_eq b]
  have ha := tailOf_spec a
  have hb := tailOf_spec b
  cases hia : titems a with
  | nil =>
    cases hib : titems b with
    | nil => simp [headItems, sameItems]
    | cons y ys => cases y <;> simp [headItems, sameItems]
  | cons x xs =>
    cases x with
    | cmd => simp [headItems, sameItems]
    | null => simp [headItems, sameItems]
    | chr x =>
      cases hib : titems b with
      | nil => simp [headItems, sameItems]
      | cons y ys =>
        cases y with
        | cmd => simp [headItems, sameItems]
        | null => simp [headItems, sameItems]
        | chr y =>
          rw [hia] at ha; rw [hib] at hb
          obtain ⟨na, ha1, ha2⟩ := ha
          obtain ⟨nb, hb1, hb2⟩ := hb
          simp only [headItems, sameItems]
          by_cases hxy : x = y
          · subst hxy
            simp only [ne_eq, not_true_eq_false, if_false, if_true, reduceCtorEq]
            have := ih (chars na) (hn ▸ tailOf_chars a na ha1) na nb rfl
            rw [ha2, hb2] at this
            split <;> rename_i heq
            · rw [ha1] at heq; cases heq
            · rw [ha1] at heq; cases heq
            · rw [ha1] at heq; cases heq
            · rw [ha1] at heq; cases heq
            · rw [ha1] at heq; cases heq
              rw [hb1]; exact this
          · simp [hxy]

theorem sameItems_no_crash (xs ys : List Item) (c : Crash) : sameItems xs ys ≠ .crash c := by
  induction xs generalizing ys with
  | nil => cases ys with
    | nil => simp [sameItems]
    | cons y ys => cases y <;> simp [sameItems]
  | cons x xs ih =>
    cases x with
    | cmd => simp [sameItems]
    | null => simp [sameItems]
    | chr x => cases ys with
      | nil => simp [sameItems]
      | cons y ys =>
        cases y with
        | cmd => simp [sameItems]
        | null => simp [sameItems]
        | chr y =>
          simp only [sameItems]
          split
          · exact ih ys
          · simp

/-- C51: comparing does not end abnormally, whatever the markup, even if pointers are missing. -/
theorem C51_no_crash (a b : Tree) (c : Crash) : eqLoop a b ≠ .crash c := by
  rw [eqLoop_eq]; exact sameItems_no_crash _ _ c

/-! ### Markup -/

def toItem : Option Char → Item
  | some c => .chr c
  | none => .cmd

mutual
theorem titems_embed : (m : Markup) → titems (embed m) = (items m).map toItem
  | .plain s => by simp [embed, titems, items, toItem]
  | .cmd _ _ => by simp [embed, titems, items, toItem]
  | .seq ms => by simp only [embed, titems, items]; exact titemsL_embed ms
theorem titemsL_embed : (ms : List Markup) → titemsL (embedL ms) = (itemsL ms).map toItem
  | [] => rfl
  | m :: ms => by simp only [embedL, titemsL, itemsL, List.map_append]; rw [titems_embed m, titemsL_embed ms]
end

/-- How the result of a C function on markup without missing pointers compares with the meaning. -/
def CRes.Is {α : Type} (r : CRes α) (s : Res α) : Prop :=
  match s with
  | .ok a => r = .ok a
  | .err => r = .fail
  | .more => False

theorem headItems_is (l : List (Option Char)) : (headItems (l.map toItem)).Is (first l) := by
  cases l with
  | nil => rfl
  | cons o l => cases o <;> rfl

theorem sameItems_is (xs ys : List (Option Char)) : (sameItems (xs.map toItem) (ys.map toItem)).Is (sameText xs ys) := by
  induction xs generalizing ys with
  | nil => cases ys with
    | nil => simp [sameItems, sameText, CRes.Is]
    | cons y ys => cases y <;> simp [sameItems, sameText, toItem, CRes.Is]
  | cons x xs ih =>
    cases x with
    | none => simp [sameItems, sameText, toItem, CRes.Is]
    | some x => cases ys with
      | nil => simp [sameItems, sameText, toItem, CRes.Is]
      | cons y ys =>
        cases y with
        | none => simp [sameItems, sameText, toItem, CRes.Is]
        | some y =>
          simp only [sameItems, sameText, toItem, List.map_cons]
          split
          · exact ih ys
          · rfl

/-- C51: `@head` finds the first character. -/
theorem C51_head (m : Markup) : (headOf (embed m)).Is (first (items m)) := by
  rw [headOf_eq, titems_embed]; exact headItems_is _

/-- C51: `Eq` compares from the left, as in the definition of the language. -/
theorem C51_compare (a b : Markup) : (eqLoop (embed a) (embed b)).Is (sameText (items a) (items b)) := by
  rw [eqLoop_eq, titems_embed, titems_embed]; exact sameItems_is _ _

theorem sameText_text : (s t : Str) → sameText (s.map some) (t.map some) = .ok (decide (s = t))
  | [], [] => by simp [sameText]
  | [], _ :: _ => by simp [sameText]
  | _ :: _, [] => by simp [sameText]
  | a :: s, b :: t => by
    simp only [List.map_cons, sameText]
    rw [sameText_text s t]
    by_cases h : a = b
    · simp [h]
    · simp [h]

theorem items_of_text {m : Markup} {s : Str} (h : text m = some s) : items m = s.map some := by
  rw [text] at h
  revert h
  generalize items m = l
  intro h
  induction l generalizing s with
  | nil => simp at h; subst h; rfl
  | cons o l ih =>
    cases o with
    | none => simp at h
    | some c =>
      simp only [List.mapM_cons, id] at h
      cases hl : l.mapM id with
      | none => rw [hl] at h; simp at h
      | some s' =>
        rw [hl] at h
        simp at h
        subst h
        rw [ih hl]; rfl

/-- C51: markups without commands are equal exactly when they have the same text, however the text
is split into sequences. -/
theorem C51_equal (a b : Markup) (s t : Str) (ha : text a = some s) (hb : text b = some t) :
    eqLoop (embed a) (embed b) = .ok (decide (s = t)) := by
  have := C51_compare a b
  rw [items_of_text ha, items_of_text hb, sameText_text] at this
  exact this

mutual
theorem dropFirst_spec : (m : Markup) → (c : Char) → (l : List (Option Char)) → items m = some c :: l →
    tailOf (embed m) = .ok (some (embed (dropFirst m)))
  | .plain [], c, l, h => by simp [items] at h
  | .plain (a :: s), c, l, h => by simp [embed, tailOf, dropFirst]
  | .cmd _ _, c, l, h => by simp [items] at h
  | .seq ms, c, l, h => by
    simp only [embed, tailOf, dropFirst]; exact dropFirstL_spec ms c l (by simpa [items] using h)
theorem dropFirstL_spec : (ms : List Markup) → (c : Char) → (l : List (Option Char)) → itemsL ms = some c :: l →
    tailOfL (embedL ms) = .ok (some (embed (dropFirstL ms)))
  | [], c, l, h => by simp [itemsL] at h
  | m :: ms, c, l, h => by
    simp only [embedL, tailOfL, dropFirstL]
    simp only [itemsL] at h
    cases hi : items m with
    | nil =>
      have hs := tailOf_spec (embed m)
      rw [titems_embed, hi] at hs
      rw [show tailOf (embed m) = .ok none from hs, if_pos rfl]
      rw [hi] at h
      exact dropFirstL_spec ms c l h
    | cons o l' =>
      rw [if_neg (by simp)]
      rw [hi] at h
      simp only [List.cons_append, List.cons.injEq] at h
      rw [h.1] at hi
      rw [dropFirst_spec m c l' hi]
      cases ms with
      | nil => simp [embedL]
      | cons m' ms' => simp [embedL, embed]
end

mutual
theorem dropFirst_items : (m : Markup) → (c : Char) → (l : List (Option Char)) → items m = some c :: l → items (dropFirst m) = l
  | .plain [], c, l, h => by simp [items] at h
  | .plain (a :: s), c, l, h => by simp [items] at h; simp [dropFirst, items, h]
  | .cmd _ _, c, l, h => by simp [items] at h
  | .seq ms, c, l, h => by
    simp only [dropFirst]; exact dropFirstL_items ms c l (by simpa [items] using h)
theorem dropFirstL_items : (ms : List Markup) → (c : Char) → (l : List (Option Char)) → itemsL ms = some c :: l → items (dropFirstL ms) = l
  | [], c, l, h => by simp [itemsL] at h
  | m :: ms, c, l, h => by
    simp only [dropFirstL]
    simp only [itemsL] at h
    cases hi : items m with
    | nil =>
      rw [if_pos rfl]
      rw [hi] at h
      exact dropFirstL_items ms c l h
    | cons o l' =>
      rw [if_neg (by simp)]
      rw [hi] at h
      simp only [List.cons_append, List.cons.injEq] at h
      rw [h.1] at hi
      have := dropFirst_items m c l' hi
      split
      · rename_i he; subst he; rw [this]; simpa [itemsL] using h.2
      · simp only [items, itemsL]; rw [this]; exact h.2
end

/-- C51: `@tail` removes the first character and keeps everything else. -/
theorem C51_tail (m : Markup) : match items m with
    | [] => tailOf (embed m) = .ok none
    | some _ :: l => ∃ v, tailOf (embed m) = .ok (some (embed v)) ∧ items v = l
    | none :: _ => tailOf (embed m) = .fail := by
  have hs := tailOf_spec (embed m)
  rw [titems_embed] at hs
  cases hi : items m with
  | nil => rw [hi] at hs; exact hs
  | cons o l =>
    cases o with
    | none => rw [hi] at hs; exact hs
    | some c => exact ⟨_, dropFirst_spec m c l hi, dropFirst_items m c l hi⟩

/-- `ab` in one piece and in two are equal; `a` then a command: its head is `a`. -/
example : eqLoop (embed (.plain ['a', 'b'])) (embed (.seq [.plain ['a'], .seq [.plain [], .plain ['b']]])) = .ok true ∧
    headOf (embed (.seq [.plain ['a'], .cmd ['x'] []])) = .ok (some 'a') :=
  ⟨C51_equal _ _ ['a', 'b'] ['a', 'b'] rfl rfl, rfl⟩

end Verif.Fbld
