/- Small general purpose definitions shared by the modules. -/
namespace Verif

/-- Two lists are related elementwise (same length, corresponding elements related). -/
inductive All2 {α β : Type _} (R : α → β → Prop) : List α → List β → Prop where
  | nil : All2 R [] []
  | cons {a b as bs} : R a b → All2 R as bs → All2 R (a :: as) (b :: bs)

namespace All2
variable {α β : Type _} {R : α → β → Prop}

theorem length_eq {as : List α} {bs : List β} (h : All2 R as bs) : as.length = bs.length := by
  induction h with
  | nil => rfl
  | cons _ _ ih => simp [ih]

theorem get {as : List α} {bs : List β} (h : All2 R as bs) (i : Nat) (h₁ : i < as.length)
    (h₂ : i < bs.length) : R as[i] bs[i] := by
  induction h generalizing i with
  | nil => simp at h₁
  | cons hr _ ih =>
    cases i with
    | zero => simpa using hr
    | succ i => simpa using ih i (by simpa using h₁) (by simpa using h₂)

theorem of_get {as : List α} {bs : List β} (hl : as.length = bs.length)
    (h : ∀ i (h₁ : i < as.length) (h₂ : i < bs.length), R as[i] bs[i]) : All2 R as bs := by
  induction as generalizing bs with
  | nil => cases bs with
    | nil => exact .nil
    | cons b bs => simp at hl
  | cons a as ih => cases bs with
    | nil => simp at hl
    | cons b bs =>
      refine .cons (h 0 (by simp) (by simp)) (ih (by simpa using hl) ?_)
      intro i h₁ h₂
      have := h (i+1) (by simp; omega) (by simp; omega)
      simpa using this

theorem append {as as' : List α} {bs bs' : List β} (h : All2 R as bs) (h' : All2 R as' bs') :
    All2 R (as ++ as') (bs ++ bs') := by
  induction h with
  | nil => simpa
  | cons hr _ ih => exact .cons hr ih

theorem reverse {as : List α} {bs : List β} (h : All2 R as bs) : All2 R as.reverse bs.reverse := by
  induction h with
  | nil => exact .nil
  | cons hr _ ih => simp only [List.reverse_cons]; exact ih.append (.cons hr .nil)

theorem mono {S : α → β → Prop} {as : List α} {bs : List β} (h : All2 R as bs)
    (hRS : ∀ a b, R a b → S a b) : All2 S as bs := by
  induction h with
  | nil => exact .nil
  | cons hr _ ih => exact .cons (hRS _ _ hr) ih

theorem mem_left {as : List α} {bs : List β} (h : All2 R as bs) {a : α} (ha : a ∈ as) :
    ∃ b ∈ bs, R a b := by
  induction h with
  | nil => simp at ha
  | cons hr _ ih =>
    rcases List.mem_cons.mp ha with rfl | ha
    · exact ⟨_, by simp, hr⟩
    · obtain ⟨b, hb, h⟩ := ih ha; exact ⟨b, by simp [hb], h⟩

theorem mem_right {as : List α} {bs : List β} (h : All2 R as bs) {b : β} (hb : b ∈ bs) :
    ∃ a ∈ as, R a b := by
  induction h with
  | nil => simp at hb
  | cons hr _ ih =>
    rcases List.mem_cons.mp hb with rfl | hb
    · exact ⟨_, by simp, hr⟩
    · obtain ⟨a, ha, h⟩ := ih hb; exact ⟨a, by simp [ha], h⟩

end All2
end Verif
