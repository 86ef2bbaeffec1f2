import Verif.Host.App
/-
C84: what FbleAppMain draws is what the program's value of type `Drawing@` means.
C85: events and pictures come in order.
-/
namespace Verif.Host
open Verif.Compile

/-! ### Specification: /App/Drawing% -/

/-- A `Point@`. -/
structure Pt where
  (x y : Int)
deriving DecidableEq

/-- A drawing, as in pkgs/app/App/Drawing.fble:35-52. -/
inductive Drawing where
  | blank
  | triangle (a b c : Pt) (color : Color)
  | rect (x y w h : Int) (color : Color)
  | transformed (a b : Pt) (d : Drawing)
  | over (below above : Drawing)

/-- The value of a field, if it can be seen. -/
def ShowsField (v : View) (n i : Nat) (P : View → Prop) : Prop := v [] = .struct n ∧ P (sub v i)

def ShowsPoint (v : View) (p : Pt) : Prop := ShowsField v 2 0 (ShowsInt · p.x) ∧ ShowsField v 2 1 (ShowsInt · p.y)

def ShowsColor (v : View) (c : Color) : Prop := ShowsField v 3 0 (ShowsInt · c.r) ∧ ShowsField v 3 1 (ShowsInt · c.g) ∧ ShowsField v 3 2 (ShowsInt · c.b)

/-- A value of type `Drawing@`: the alternatives and their fields in the order of the type. -/
inductive ShowsDrawing : View → Drawing → Prop
  | blank {v} : v [] = .union 0 → ShowsDrawing v .blank
  | triangle {v a b c color} : v [] = .union 1 → ShowsField (sub v 0) 4 0 (ShowsPoint · a) → ShowsField (sub v 0) 4 1 (ShowsPoint · b) →
      ShowsField (sub v 0) 4 2 (ShowsPoint · c) → ShowsField (sub v 0) 4 3 (ShowsColor · color) → ShowsDrawing v (.triangle a b c color)
  | rect {v x y w h color} : v [] = .union 2 → ShowsField (sub v 0) 5 0 (ShowsInt · x) → ShowsField (sub v 0) 5 1 (ShowsInt · y) →
      ShowsField (sub v 0) 5 2 (ShowsInt · w) → ShowsField (sub v 0) 5 3 (ShowsInt · h) → ShowsField (sub v 0) 5 4 (ShowsColor · color) → ShowsDrawing v (.rect x y w h color)
  | transformed {v a b d} : v [] = .union 3 → ShowsField (sub v 0) 3 0 (ShowsPoint · a) → ShowsField (sub v 0) 3 1 (ShowsPoint · b) →
      sub v 0 [] = .struct 3 → ShowsDrawing (sub (sub v 0) 2) d → ShowsDrawing v (.transformed a b d)
  | over {v d e} : v [] = .union 4 → sub v 0 [] = .struct 2 → ShowsDrawing (sub (sub v 0) 0) d → ShowsDrawing (sub (sub v 0) 1) e → ShowsDrawing v (.over d e)

/-- The rectangle between two opposite corners. -/
def box (p q : Pt) (c : Color) : Prim := .rect (min p.x q.x) (min p.y q.y) (max p.x q.x) (max p.y q.y) c

/-- What a drawing looks like: the shapes it consists of, the lowest one first, where `f` says where points of the drawing are on the screen.  "Each point p will be transformed
to (a.x*p.x + b.x, a.y*p.y + b.y)", pkgs/app/App/Drawing.fble:78-79. -/
def Drawing.shapes (f : Pt → Pt) : Drawing → List Prim
  | .blank => []
  | .triangle a b c color => [.triangle (f a).x (f a).y (f b).x (f b).y (f c).x (f c).y color]
  | .rect x y w h color => [box (f ⟨x, y⟩) (f ⟨x + w, y + h⟩) color]
  | .transformed a b d => d.shapes fun p => f ⟨a.x * p.x + b.x, a.y * p.y + b.y⟩
  | .over below above => below.shapes f ++ above.shapes f

/-- Less than 2^31, without the sign. -/
def Small (x : Int) : Prop := -2147483648 < x ∧ x < 2147483648

/-- The number, its product with `a`, and that plus `b` are small. -/
structure Fit (a b x : Int) : Prop where
  number : Small x
  product : Small (a * x)
  sum : Small (a * x + b)

def FitColor (c : Color) : Prop := Small c.r ∧ Small c.g ∧ Small c.b

/-- The numbers in a drawing, the coordinates on the screen and the coefficients of the transformations are small, where p is drawn at a * p + b. -/
def Drawing.Fits (a b : Pt) : Drawing → Prop
  | .blank => True
  | .triangle p q r color => (Fit a.x b.x p.x ∧ Fit a.y b.y p.y) ∧ (Fit a.x b.x q.x ∧ Fit a.y b.y q.y) ∧ (Fit a.x b.x r.x ∧ Fit a.y b.y r.y) ∧ FitColor color
  | .rect x y w h color => Fit a.x b.x x ∧ Fit a.y b.y y ∧ Fit a.x (a.x * x + b.x) w ∧ Fit a.y (a.y * y + b.y) h ∧ FitColor color
  | .transformed a' b' d => Fit a.x 0 a'.x ∧ Fit a.y 0 a'.y ∧ Fit a.x b.x b'.x ∧ Fit a.y b.y b'.y ∧ d.Fits ⟨a.x * a'.x, a.y * a'.y⟩ ⟨a.x * b'.x + b.x, a.y * b'.y + b.y⟩
  | .over d e => d.Fits a b ∧ e.Fits a b

/-! ### Proofs -/

theorem Reading.bind_ok {α β} (a : α) (k : α → Reading β) : (Reading.ok a >>= k) = k a := rfl

theorem Reading.pure_eq {α} (a : α) : (pure a : Reading α) = .ok a := rfl

theorem small_i32 {x : Int} (h : Small x) : i32 x = some x := if_pos ⟨by have := h.1; omega, h.2⟩

theorem small_i64 {x : Int} (h : Small x) : i64 x = some x := i64_eq (by have := h.1; omega) (by have := h.2; omega)

theorem small_toInt {x : Int} (h : Small x) : toInt x = x := by
  have h1 := h.1
  have h2 := h.2
  unfold toInt
  rw [Int.bmod_eq_of_le (by omega) (by omega)]

theorem shows_reading {v : View} {x : Int} (h : ShowsInt v x) (hx : Small x) : readingInt v = .ok x :=
  readingInt_some (C78_read h (by have := hx.1; omega) (by have := hx.2; omega))

theorem reads_int32 {v : View} {x : Int} (h : ShowsInt v x) (hx : Small x) : readInt32 v = .ok x := by
  simp only [readInt32, shows_reading h hx, Reading.bind_ok, Reading.pure_eq, small_toInt hx]

theorem reads_coord {v : View} {a b x : Int} (h : ShowsInt v x) (hx : Fit a b x) : readCoord a b v = .ok (a * x + b) := by
  simp only [readCoord, shows_reading h hx.number, Reading.bind_ok, Reading.pure_eq, small_i64 hx.product, small_i64 hx.sum, small_toInt hx.sum, Reading.ofOption]

theorem affine_eq {a b x : Int} (hx : Fit a b x) : affine a x b = .ok (a * x + b) := by
  simp only [affine, small_i32 hx.product, small_i32 hx.sum, Reading.ofOption, Reading.bind_ok]

theorem field_eq {v : View} {n i : Nat} {P : View → Prop} (h : ShowsField v n i P) (hi : i < n) : readField v i = .ok (sub v i) := by
  simp only [readField, h.1, if_pos hi]

theorem reads_point {v : View} {p a b : Pt} (h : ShowsPoint v p) (hx : Fit a.x b.x p.x) (hy : Fit a.y b.y p.y) : readPoint a.x a.y b.x b.y v = .ok (a.x * p.x + b.x, a.y * p.y + b.y) := by
  simp only [readPoint, field_eq h.1 (by decide), field_eq h.2 (by decide), Reading.bind_ok, reads_coord h.1.2 hx, reads_coord h.2.2 hy, Reading.pure_eq]

theorem reads_color {v : View} {c : Color} (h : ShowsColor v c) (hc : FitColor c) : readColor v = .ok c := by
  simp only [readColor, field_eq h.1 (by decide), field_eq h.2.1 (by decide), field_eq h.2.2 (by decide), Reading.bind_ok, reads_int32 h.1.2 hc.1, reads_int32 h.2.1.2 hc.2.1, reads_int32 h.2.2.2 hc.2.2, Reading.pure_eq]

theorem corners_eq {x w : Int} (hx : Small x) (hw : Small w) (hs : Small (x + w)) : corners x w = .ok (min x (x + w), max x (x + w)) := by
  unfold corners
  split
  · rename_i h
    have hn : Small (-w) := ⟨by have := hw.2; omega, by have := hw.1; omega⟩
    rw [small_i32 hs, small_i32 hn]
    simp only [Reading.ofOption, Reading.bind_ok]
    rw [show x + w + -w = x by omega, small_i32 hx, Int.min_eq_right (by omega), Int.max_eq_left (by omega)]
    rfl
  · rw [small_i32 hs, Int.min_eq_left (by omega), Int.max_eq_right (by omega)]
    rfl

/-- The depth of a drawing. -/
def Drawing.depth : Drawing → Nat
  | .transformed _ _ d => d.depth + 1
  | .over d e => max d.depth e.depth + 1
  | _ => 0

theorem shapes_congr {f g : Pt → Pt} (h : ∀ p, f p = g p) : (d : Drawing) → d.shapes f = d.shapes g := by
  intro d
  rw [show f = g from funext h]

theorem draws {v : View} {d : Drawing} (h : ShowsDrawing v d) : ∀ (a b : Pt) (n : Nat), d.depth < n → d.Fits a b → draw n a.x a.y b.x b.y v = .ok (d.shapes fun p => ⟨a.x * p.x + b.x, a.y * p.y + b.y⟩) := by
  induction h with
  | blank h =>
    intro a b n hn _
    match n, hn with
    | n + 1, _ => simp only [draw, h, Drawing.shapes]
  | triangle h h0 h1 h2 h3 =>
    intro a b n hn hf
    obtain ⟨f0, f1, f2, f3⟩ := hf
    match n, hn with
    | n + 1, _ =>
      simp only [draw, h, field_eq h0 (by decide), field_eq h1 (by decide), field_eq h2 (by decide), field_eq h3 (by decide), Reading.bind_ok,
        reads_point h0.2 f0.1 f0.2, reads_point h1.2 f1.1 f1.2, reads_point h2.2 f2.1 f2.2, reads_color h3.2 f3, Reading.pure_eq, Drawing.shapes]
  | @rect v x y w h color hv h0 h1 h2 h3 h4 =>
    intro a b n hn hf
    obtain ⟨f0, f1, f2, f3, f4⟩ := hf
    match n, hn with
    | n + 1, _ =>
      have g2 : Fit a.x 0 w := ⟨f2.number, f2.product, by rw [Int.add_zero]; exact f2.product⟩
      have g3 : Fit a.y 0 h := ⟨f3.number, f3.product, by rw [Int.add_zero]; exact f3.product⟩
      have s2 := f2.sum
      have s3 := f3.sum
      rw [Int.add_comm] at s2 s3
      simp only [draw, hv, field_eq h0 (by decide), field_eq h1 (by decide), field_eq h2 (by decide), field_eq h3 (by decide), field_eq h4 (by decide), Reading.bind_ok,
        reads_coord h0.2 f0, reads_coord h1.2 f1, reads_coord h2.2 g2, reads_coord h3.2 g3, Int.add_zero, corners_eq f0.sum f2.product s2, corners_eq f1.sum f3.product s3, reads_color h4.2 f4, Reading.pure_eq,
        Drawing.shapes, box]
      have e1 : a.x * x + b.x + a.x * w = a.x * (x + w) + b.x := by rw [Int.mul_add]; omega
      have e2 : a.y * y + b.y + a.y * h = a.y * (y + h) + b.y := by rw [Int.mul_add]; omega
      rw [e1, e2]
  | @transformed v a' b' d hv h0 h1 h2 _ ih =>
    intro a b n hn hf
    obtain ⟨f0, f1, f2, f3, f4⟩ := hf
    match n, hn with
    | n + 1, hn =>
      have h2' : ShowsField (sub v 0) 3 2 fun _ => True := ⟨h2, trivial⟩
      have p0 := h0.2
      have p1 := h1.2
      have := ih ⟨a.x * a'.x, a.y * a'.y⟩ ⟨a.x * b'.x + b.x, a.y * b'.y + b.y⟩ n (by simp only [Drawing.depth] at hn; omega) f4
      simp only [draw, hv, field_eq h0 (by decide), field_eq h1 (by decide), field_eq h2' (by decide), Reading.bind_ok, field_eq p0.1 (by decide), field_eq p0.2 (by decide), field_eq p1.1 (by decide),
        field_eq p1.2 (by decide), reads_int32 p0.1.2 f0.number, reads_int32 p0.2.2 f1.number, reads_int32 p1.1.2 f2.number, reads_int32 p1.2.2 f3.number, small_i32 f0.product, small_i32 f1.product,
        Reading.ofOption, affine_eq f2, affine_eq f3, Drawing.shapes]
      rw [this]
      congr 1
      refine shapes_congr (fun p => ?_) d
      simp only [Int.mul_add, Int.mul_assoc, Int.add_assoc]
  | @over v d e hv h0 _ _ ih1 ih2 =>
    intro a b n hn hf
    match n, hn with
    | n + 1, hn =>
      simp only [Drawing.depth] at hn
      have g0 : ShowsField (sub v 0) 2 0 fun _ => True := ⟨h0, trivial⟩
      have g1 : ShowsField (sub v 0) 2 1 fun _ => True := ⟨h0, trivial⟩
      simp only [draw, hv, field_eq g0 (by decide), field_eq g1 (by decide), Reading.bind_ok, ih1 a b n (by omega) hf.1, ih2 a b n (by omega) hf.2, Reading.pure_eq, Drawing.shapes]

theorem Reading.bind_eq {α β} {r : Reading α} {k : α → Reading β} {b : β} : (r >>= k) = .ok b ↔ ∃ a, r = .ok a ∧ k a = .ok b := by
  cases r with
  | ok a => exact ⟨fun h => ⟨a, rfl, h⟩, fun ⟨_, e, h⟩ => by cases e; exact h⟩
  | fails =>
    constructor
    · intro h; cases h
    · rintro ⟨_, e, _⟩; cases e
  | wrong =>
    constructor
    · intro h; cases h
    · rintro ⟨_, e, _⟩; cases e

theorem Reading.bind_congr {α β} {r : Reading α} {k k' : α → Reading β} {b : β} (h : (r >>= k) = .ok b) (hk : ∀ a, k a = .ok b → k' a = .ok b) : (r >>= k') = .ok b := by
  obtain ⟨a, h1, h2⟩ := Reading.bind_eq.mp h
  exact Reading.bind_eq.mpr ⟨a, h1, hk a h2⟩

/-- Nothing but the recursive calls of `draw` depends on the bound. -/
theorem draw_succ (n : Nat) (ax ay bx by' : Int) (v : View) {l : List Prim} (m : Nat) (hr : ∀ {ax ay bx by' v l}, draw n ax ay bx by' v = .ok l → draw m ax ay bx by' v = .ok l)
    (h : draw (n + 1) ax ay bx by' v = .ok l) : draw (m + 1) ax ay bx by' v = .ok l := by
  rw [draw] at h ⊢
  cases hv : v [] with
  | union k =>
    rw [hv] at h
    match k, h with
    | 0, h => exact h
    | 1, h => exact h
    | 2, h => exact h
    | 3, h =>
      dsimp only at h ⊢
      refine Reading.bind_congr h fun _ h => ?_
      refine Reading.bind_congr h fun _ h => ?_
      refine Reading.bind_congr h fun _ h => ?_
      refine Reading.bind_congr h fun _ h => ?_
      refine Reading.bind_congr h fun _ h => ?_
      refine Reading.bind_congr h fun _ h => ?_
      refine Reading.bind_congr h fun _ h => ?_
      refine Reading.bind_congr h fun _ h => ?_
      refine Reading.bind_congr h fun _ h => ?_
      refine Reading.bind_congr h fun _ h => ?_
      refine Reading.bind_congr h fun _ h => ?_
      refine Reading.bind_congr h fun _ h => ?_
      refine Reading.bind_congr h fun _ h => ?_
      refine Reading.bind_congr h fun _ h => ?_
      refine Reading.bind_congr h fun _ h => ?_
      exact hr h
    | 4, h =>
      dsimp only at h ⊢
      refine Reading.bind_congr h fun _ h => ?_
      obtain ⟨x, h1, h⟩ := Reading.bind_eq.mp h
      refine Reading.bind_eq.mpr ⟨x, hr h1, ?_⟩
      refine Reading.bind_congr h fun _ h => ?_
      obtain ⟨y, h1, h⟩ := Reading.bind_eq.mp h
      exact Reading.bind_eq.mpr ⟨y, hr h1, h⟩
    | k + 5, h => exact h
  | _ => rw [hv] at h; exact h

/-- More depth changes nothing. -/
theorem draw_more (n : Nat) : ∀ {ax ay bx by' : Int} {v : View} {m : Nat}, n ≤ m → ∀ {l : List Prim}, draw n ax ay bx by' v = .ok l → draw m ax ay bx by' v = .ok l := by
  induction n with
  | zero => intro _ _ _ _ _ _ _ _ h; cases h
  | succ n ih =>
    intro ax ay bx by' v m hm l h
    obtain ⟨m, rfl⟩ : ∃ k, m = k + 1 := ⟨m - 1, by omega⟩
    exact draw_succ n ax ay bx by' v m (fun h => ih (by omega) h) h

theorem drawing_eq {v : View} {n : Nat} {l : List Prim} (h : draw n 1 1 0 0 v = .ok l) : drawing v = .ok l := by
  have hex : ∃ n l, draw n 1 1 0 0 v = .ok l := ⟨n, l, h⟩
  unfold drawing
  rw [dif_pos hex]
  have h1 := hex.choose_spec.choose_spec
  have h2 := draw_more _ (Nat.le_max_left hex.choose n) h1
  rw [draw_more n (Nat.le_max_right hex.choose n) h] at h2
  exact h2.symm

/-- C84: EffectImpl draws the shapes of the drawing where they should be, the lower ones first. -/
theorem C84_draw {v : View} {d : Drawing} (h : ShowsDrawing v d) (hf : d.Fits ⟨1, 1⟩ ⟨0, 0⟩) : drawing v = .ok (d.shapes id) := by
  have := draws h ⟨1, 1⟩ ⟨0, 0⟩ (d.depth + 1) (by omega) hf
  rw [drawing_eq this]
  congr 1
  refine shapes_congr (fun p => ?_) d
  simp only [Int.one_mul, Int.add_zero, id]

/-- There is a value for each number. -/
theorem shown_int (x : Int) (hx : Small x) : ∃ a : SVal, ShowsInt (view [] a) x := by
  obtain ⟨_, v, _, _, h, _⟩ := C78_make (F := SFn) (refs := []) (native := fun op more => .native op more []) (args := []) (x := x) (by have := hx.1; omega) (by have := hx.2; omega)
  exact ⟨v, h⟩

theorem shown_field {fs : List SVal} {i : Nat} {a : SVal} {P : View → Prop} (h : fs[i]? = some a) (hP : P (view [] a)) : ShowsField (view [] (.struct fs)) fs.length i P := by
  refine ⟨by simp [view, unwrap], ?_⟩
  rw [sub_struct [] fs i a h]
  exact hP

theorem shown_point (p : Pt) (hx : Small p.x) (hy : Small p.y) : ∃ a : SVal, ShowsPoint (view [] a) p := by
  obtain ⟨a, ha⟩ := shown_int p.x hx
  obtain ⟨b, hb⟩ := shown_int p.y hy
  exact ⟨.struct [a, b], shown_field (i := 0) rfl ha, shown_field (i := 1) rfl hb⟩

theorem shown_color (c : Color) (h : FitColor c) : ∃ a : SVal, ShowsColor (view [] a) c := by
  obtain ⟨r, hr⟩ := shown_int c.r h.1
  obtain ⟨g, hg⟩ := shown_int c.g h.2.1
  obtain ⟨b, hb⟩ := shown_int c.b h.2.2
  exact ⟨.struct [r, g, b], shown_field (i := 0) rfl hr, shown_field (i := 1) rfl hg, shown_field (i := 2) rfl hb⟩

theorem shown_drawing : (d : Drawing) → {a b : Pt} → d.Fits a b → ∃ v : SVal, ShowsDrawing (view [] v) d
  | .blank, _, _, _ => ⟨.union 0 (.struct []), .blank (view_union [] _ _)⟩
  | .triangle p q r c, _, _, ⟨f0, f1, f2, f3⟩ => by
    obtain ⟨p', hp⟩ := shown_point p f0.1.number f0.2.number
    obtain ⟨q', hq⟩ := shown_point q f1.1.number f1.2.number
    obtain ⟨r', hr⟩ := shown_point r f2.1.number f2.2.number
    obtain ⟨c', hc⟩ := shown_color c f3
    refine ⟨.union 1 (.struct [p', q', r', c']), .triangle (view_union [] _ _) ?_ ?_ ?_ ?_⟩ <;> rw [sub_union]
    · exact shown_field (i := 0) rfl hp
    · exact shown_field (i := 1) rfl hq
    · exact shown_field (i := 2) rfl hr
    · exact shown_field (i := 3) rfl hc
  | .rect x y w h c, _, _, ⟨f0, f1, f2, f3, f4⟩ => by
    obtain ⟨x', hx⟩ := shown_int x f0.number
    obtain ⟨y', hy⟩ := shown_int y f1.number
    obtain ⟨w', hw⟩ := shown_int w f2.number
    obtain ⟨h', hh⟩ := shown_int h f3.number
    obtain ⟨c', hc⟩ := shown_color c f4
    refine ⟨.union 2 (.struct [x', y', w', h', c']), .rect (view_union [] _ _) ?_ ?_ ?_ ?_ ?_⟩ <;> rw [sub_union]
    · exact shown_field (i := 0) rfl hx
    · exact shown_field (i := 1) rfl hy
    · exact shown_field (i := 2) rfl hw
    · exact shown_field (i := 3) rfl hh
    · exact shown_field (i := 4) rfl hc
  | .transformed a b d, _, _, ⟨f0, f1, f2, f3, f4⟩ => by
    obtain ⟨a', ha⟩ := shown_point a f0.number f1.number
    obtain ⟨b', hb⟩ := shown_point b f2.number f3.number
    obtain ⟨d', hd⟩ := shown_drawing d f4
    refine ⟨.union 3 (.struct [a', b', d']), .transformed (view_union [] _ _) ?_ ?_ ?_ ?_⟩ <;> rw [sub_union]
    · exact shown_field (i := 0) rfl ha
    · exact shown_field (i := 1) rfl hb
    · simp [view, unwrap]
    · rw [sub_struct [] _ 2 d' rfl]; exact hd
  | .over d e, _, _, ⟨f, g⟩ => by
    obtain ⟨d', hd⟩ := shown_drawing d f
    obtain ⟨e', he⟩ := shown_drawing e g
    refine ⟨.union 4 (.struct [d', e']), .over (view_union [] _ _) ?_ ?_ ?_⟩ <;> rw [sub_union]
    · simp [view, unwrap]
    · rw [sub_struct [] _ 0 d' rfl]; exact hd
    · rw [sub_struct [] _ 1 e' rfl]; exact he

/-! ### Events and pictures -/

/-- What a call draws, if it is one of `effect` with a drawing. -/
noncomputable def pictureOf (c : Call) : Option (List Prim) :=
  match Op.ofCode c.op, c.args with
  | .effect, [e, _] => (match e [], drawing (sub e 0) with
    | .union 1, .ok d => some d
    | _, _ => none)
  | _, _ => none

/-- A call of `event`. -/
def takesEvent (c : Call) : Bool := Op.ofCode c.op = .event && c.args.length = 1

/-- The values of type `Event@` of the events of SDL which have one. -/
def eventValues (es : List SdlEvent) : List Made := es.filterMap makeEvent

theorem nextEvent_none : {es : List SdlEvent} → nextEvent es = none → eventValues es = []
  | [], _ => rfl
  | e :: es, h => by
    rw [nextEvent] at h
    cases he : makeEvent e with
    | some m => rw [he] at h; cases h
    | none => rw [he] at h; simp only [eventValues, List.filterMap_cons, he]; exact nextEvent_none h

theorem nextEvent_some : {es : List SdlEvent} → {m : Made} → {rest : List SdlEvent} → nextEvent es = some (m, rest) → eventValues es = m :: eventValues rest
  | e :: es, m, rest, h => by
    rw [nextEvent] at h
    cases he : makeEvent e with
    | some m' => rw [he] at h; cases h; simp only [eventValues, List.filterMap_cons, he]
    | none => rw [he] at h; simp only [eventValues, List.filterMap_cons, he]; exact nextEvent_some h

theorem call_pictures (w : AppWorld) (st : AppState) (c : Call) : (w.call st c).1.pictures = st.pictures ++ (pictureOf c).toList := by
  unfold AppWorld.call pictureOf
  split
  · rename_i e1 e2
    simp only [e1]
    split <;> simp
  · rename_i e1 e2
    simp only [e1, e2]
    split
    · rename_i he
      simp only [he]
      split <;> simp
    · rename_i he
      simp only [he]
      cases drawing _ <;> simp
    · rename_i t h0 h1 he
      simp only [he]
      split
      · rename_i h _; cases h; exact absurd rfl h1
      · simp
    · rename_i he
      simp [he]
    · rename_i h0 h1 h2 h3
      split
      · rename_i h _; exact absurd h (h2 _)
      · simp
  · rename_i h e
    simp [h]
  · rename_i h e
    simp only [h]
    split
    · rename_i e1 e2; exact absurd e2 (e _ _)
    · simp
  · rename_i h0 h1 h2 h3
    simp

theorem call_events (w : AppWorld) (st : AppState) (c : Call) : eventValues (w.call st c).1.events = if takesEvent c then (eventValues st.events).drop 1 else eventValues st.events := by
  unfold AppWorld.call takesEvent
  split
  · rename_i e1 e2
    simp only [e1, e2]
    split
    · rename_i h; rw [nextEvent_some h]; rfl
    · rename_i h; rw [nextEvent_none h]; rfl
  · rename_i e1 e2
    simp only [e1]
    repeat' split
    all_goals simp_all
  · rename_i h e
    have : c.args.length ≠ 1 := by
      intro hl
      obtain ⟨v, hv⟩ := List.length_eq_one_iff.mp hl
      exact e v hv
    simp [this]
  · rename_i h e
    simp [h]
  · rename_i h0 h1 h2 h3
    have : decide (Op.ofCode c.op = .event) = false := decide_eq_false h0
    simp [this]

theorem after_events (w : AppWorld) : (cs : List Call) → eventValues (w.after cs).events = (eventValues w.events).drop (cs.countP takesEvent)
  | [] => rfl
  | c :: cs => by
    rw [AppWorld.after, call_events, after_events w cs, List.countP_cons]
    split <;> simp [List.drop_drop]

/-- C85, events: after any calls, the next event is the first one after those taken before for which there is an `Event@`; the process waits for ever if there is none. -/
theorem C85_events (w : AppWorld) (cs : List Call) (v : View) : w.answer (⟨Op.event.code, [v]⟩ :: cs) =
    match (eventValues w.events)[cs.countP takesEvent]? with
    | some m => .value (.struct [.argument 0, m])
    | none => .stop := by
  have h := after_events w cs
  rw [AppWorld.answer]
  simp only [AppWorld.call, Op.ofCode_code]
  cases hn : nextEvent (w.after cs).events with
  | none =>
    rw [nextEvent_none hn] at h
    rw [List.getElem?_eq_none (List.drop_eq_nil_iff.mp h.symm)]
  | some r =>
    obtain ⟨m, rest⟩ := r
    rw [nextEvent_some hn] at h
    rw [← List.head?_drop, ← h]
    rfl

/-- C85, pictures: what has been drawn is the drawings of the calls of `effect`, in order. -/
theorem C85_pictures (w : AppWorld) : (cs : List Call) → (w.after cs).pictures = cs.reverse.filterMap pictureOf
  | [] => rfl
  | c :: cs => by
    rw [AppWorld.after, call_pictures, C85_pictures w cs]
    cases hd : pictureOf c <;> simp [hd]

/-- The fields of the type `Key@` in their order, pkgs/app/App/App.fble:17-22. -/
def keyFields : List String := ["a", "d", "h", "j", "k", "l", "q", "s", "w", "left", "right", "up", "down", "space", "lshift", "rshift"]

/-- The name of a key in SDL: SDL_SCANCODE_... -/
def Scancode.name : Scancode → String
  | .A => "A" | .D => "D" | .H => "H" | .J => "J" | .K => "K" | .L => "L" | .Q => "Q" | .S => "S" | .W => "W"
  | .LEFT => "LEFT" | .RIGHT => "RIGHT" | .UP => "UP" | .DOWN => "DOWN" | .SPACE => "SPACE" | .LSHIFT => "LSHIFT" | .RSHIFT => "RSHIFT"
  | .other _ => ""

/-- C85, keys: the tag that MakeKey gives to a key is that of the field of `Key@` with its name. -/
theorem C85_keys (c : Scancode) (k : Nat) (h : makeKey c = some k) : keyFields[k]? = some c.name.toLower := by
  cases c <;> cases h <;> decide +kernel

/-- C85, standard streams are as for FbleStdio (C80). -/
theorem C85_stdio (w : AppWorld) : (cs : List Call) → (w.after cs).streams = w.io.after (cs.filter fun c => Op.ofCode c.op ≠ .event && Op.ofCode c.op ≠ .effect)
  | [] => rfl
  | c :: cs => by
    rw [AppWorld.after]
    have ih := C85_stdio w cs
    unfold AppWorld.call
    split
    · rename_i e1 e2
      rw [List.filter_cons_of_neg (by simp [e1])]
      split <;> exact ih
    · rename_i e1 e2
      rw [List.filter_cons_of_neg (by simp [e1])]
      dsimp only
      repeat' split
      all_goals exact ih
    · rename_i h e
      rw [List.filter_cons_of_neg (by simp [h])]
      exact ih
    · rename_i h e
      rw [List.filter_cons_of_neg (by simp [h])]
      exact ih
    · rename_i h0 h1 h2 h3
      have g0 : Op.ofCode c.op ≠ .event := h0
      have g1 : Op.ofCode c.op ≠ .effect := h1
      rw [List.filter_cons_of_pos (by simp [g0, g1])]
      simp only [World.after, ih]

/-! ### Example -/

/-- Two rectangles, the upper one mirrored and moved. -/
def exampleDrawing : Drawing := .over (.rect 0 0 10 20 ⟨255, 0, 0⟩) (.transformed ⟨-2, 1⟩ ⟨100, 5⟩ (.rect 0 0 10 20 ⟨0, 255, 0⟩))

theorem example_fits : exampleDrawing.Fits ⟨1, 1⟩ ⟨0, 0⟩ := by
  simp only [exampleDrawing, Drawing.Fits, FitColor]
  refine ⟨⟨⟨?_, ?_, ?_⟩, ⟨?_, ?_, ?_⟩, ⟨?_, ?_, ?_⟩, ⟨?_, ?_, ?_⟩, ?_, ?_, ?_⟩, ⟨?_, ?_, ?_⟩, ⟨?_, ?_, ?_⟩, ⟨?_, ?_, ?_⟩, ⟨?_, ?_, ?_⟩, ⟨?_, ?_, ?_⟩, ⟨?_, ?_, ?_⟩, ⟨?_, ?_, ?_⟩, ⟨?_, ?_, ?_⟩, ?_, ?_, ?_⟩ <;>
    simp [Small]

/-- It meets the hypotheses of C84. -/
theorem example_drawn : ∃ v : View, ShowsDrawing v exampleDrawing ∧ drawing v = .ok [.rect 0 0 10 20 ⟨255, 0, 0⟩, .rect 80 5 100 25 ⟨0, 255, 0⟩] := by
  obtain ⟨v, hv⟩ := shown_drawing exampleDrawing example_fits
  exact ⟨_, hv, C84_draw hv example_fits⟩

example : exampleDrawing.shapes id = [.rect 0 0 10 20 ⟨255, 0, 0⟩, .rect 80 5 100 25 ⟨0, 255, 0⟩] := rfl

end Verif.Host
