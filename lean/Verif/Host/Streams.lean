import Verif.Host.Values
/-
C80: what a program reads and writes.
-/
namespace Verif.Host
open Verif.Compile

/-! ### Specification -/

/-- A call that reads from the input stream `i`. -/
def readsFrom (i : Nat) (c : Call) : Bool := c.op = (Op.istream i).code ∧ c.args.length = 1

/-- The byte that a call writes to the output stream `i`, if it does: the lowest 8 bits of the number it is given. -/
def writesTo (i : Nat) (c : Call) : Option Nat :=
  if c.op = (Op.ostream i).code ∧ c.args.length = 2 then (c.args[0]?.bind readInt).map fun x => (x % 256).toNat else none

/-- What reading gives when `n` bytes of the content have been read: the byte, or nothing at the end. -/
def byteAt (content : List Nat) (n : Nat) : Reply := .value (result 0 (content[n]?.bind fun b => makeInt b))

/-! ### Proofs -/

theorem Op.code_ofCode : (n : Nat) → (Op.ofCode n).code = n
  | 0 => rfl
  | 1 => rfl
  | 2 => rfl
  | 3 => rfl
  | 4 => rfl
  | n + 5 => by
    rw [Op.ofCode]
    split <;> simp only [Op.code] <;> omega

theorem Op.ofCode_eq {n : Nat} {op : Op} : Op.ofCode n = op ↔ n = op.code :=
  ⟨fun h => by rw [← h, Op.code_ofCode], fun h => by rw [h, Op.ofCode_code]⟩

theorem readingInt_some {v : View} {x : Int} (h : readInt v = some x) : readingInt v = .ok x := by
  simp only [readingInt, h]

theorem readingInt_none {v : View} (h : readInt v = none) : readingInt v = .fails ∨ readingInt v = .wrong := by
  simp only [readingInt, h]
  split
  · exact .inl rfl
  · exact .inr rfl

theorem readingString_some {v : View} {x : List Nat} (h : readString v = some x) : readingString v = .ok x := by
  simp only [readingString, h]

/-- One call of the history. -/
theorem call_inputs (w : World) (st : Streams) (c : Call) {i : Nat} {content : List Nat} (h : st.inputs[i]? = some content) :
    (w.call st c).1.inputs[i]? = some (if readsFrom i c then content.drop 1 else content) := by
  have hi : i < st.inputs.length := by
    rcases Nat.lt_or_ge i st.inputs.length with h' | h'
    · exact h'
    · rw [List.getElem?_eq_none h'] at h; cases h
  by_cases hr : readsFrom i c
  · obtain ⟨op, args⟩ := c
    have hr' : op = (Op.istream i).code ∧ args.length = 1 := by simpa [readsFrom] using hr
    obtain ⟨h1, h2⟩ := hr'
    obtain ⟨v, rfl⟩ := List.length_eq_one_iff.mp h2
    rw [if_pos hr]
    simp only [World.call, Op.ofCode_eq.mpr h1, h]
    cases content with
    | nil => simpa using h
    | cons b rest => simp [hi]
  · rw [if_neg hr]
    have hr' : ∀ v, ¬ (c.op = (Op.istream i).code ∧ c.args = [v]) := by
      intro v hc
      exact hr (by simp [readsFrom, hc.1, hc.2])
    unfold World.call
    split
    · rename_i j v hj hv
      have hne : j ≠ i := fun e => hr' v ⟨Op.ofCode_eq.mp (e ▸ hj), hv⟩
      split
      · simpa [List.getElem?_set_ne hne] using h
      · exact h
      · exact h
    all_goals repeat (first | exact h | split)
    all_goals simp [List.getElem?_append_left hi, h]

theorem call_outputs (w : World) (st : Streams) (c : Call) {i : Nat} {content : List Nat} (h : st.outputs[i]? = some content) :
    (w.call st c).1.outputs[i]? = some (content ++ (writesTo i c).toList) := by
  have hi : i < st.outputs.length := by
    rcases Nat.lt_or_ge i st.outputs.length with h' | h'
    · exact h'
    · rw [List.getElem?_eq_none h'] at h; cases h
  by_cases hr : c.op = (Op.ostream i).code ∧ c.args.length = 2
  · obtain ⟨op, args⟩ := c
    obtain ⟨h1, h2⟩ := hr
    obtain ⟨b, v, rfl⟩ : ∃ b v, args = [b, v] := by
      match args, h2 with
      | [b, v], _ => exact ⟨b, v, rfl⟩
    have h1 : op = (Op.ostream i).code := h1
    subst h1
    simp only [World.call, Op.ofCode_code, h, writesTo]
    cases hb : readInt b with
    | none => rcases readingInt_none hb with hb' | hb' <;> simpa [hb, hb'] using h
    | some x => simp [hi, hb, readingInt_some hb]
  · have hr' : ∀ b v, ¬ (c.op = (Op.ostream i).code ∧ c.args = [b, v]) := by
      intro b v hc
      exact hr ⟨hc.1, by rw [hc.2]; rfl⟩
    rw [writesTo, if_neg hr]
    unfold World.call
    split
    · split <;> simpa using h
    · rename_i j b v hj hv
      have hne : j ≠ i := fun e => hr' b v ⟨Op.ofCode_eq.mp (e ▸ hj), hv⟩
      split
      · simpa [List.getElem?_set_ne hne] using h
      · simpa using h
      · simpa using h
    all_goals repeat (first | simpa using h | split)
    all_goals simp [List.getElem?_append_left hi, h]

theorem after_inputs (w : World) (cs : List Call) {i : Nat} {content : List Nat} (h : (w.after cs).inputs[i]? = some content) :
    (ds : List Call) → (w.after (ds ++ cs)).inputs[i]? = some (content.drop (ds.countP (readsFrom i)))
  | [] => by simpa using h
  | d :: ds => by
    rw [List.cons_append, World.after, call_inputs w _ d (after_inputs w cs h ds), List.countP_cons]
    split <;> simp [List.drop_drop]

theorem after_outputs (w : World) (cs : List Call) {i : Nat} {content : List Nat} (h : (w.after cs).outputs[i]? = some content) :
    (ds : List Call) → (w.after (ds ++ cs)).outputs[i]? = some (content ++ ds.reverse.filterMap (writesTo i))
  | [] => by simpa using h
  | d :: ds => by
    rw [List.cons_append, World.after, call_outputs w _ d (after_outputs w cs h ds)]
    cases hd : writesTo i d <;> simp [hd]

theorem answer_read (w : World) (cs : List Call) {i : Nat} {content : List Nat} (h : (w.after cs).inputs[i]? = some content) (ds : List Call) (v : View) :
    w.answer (⟨(Op.istream i).code, [v]⟩ :: (ds ++ cs)) = byteAt content (ds.countP (readsFrom i)) := by
  have h1 := after_inputs w cs h ds
  generalize ds.countP (readsFrom i) = n at h1
  rw [World.answer]
  simp only [World.call, Op.ofCode_code, h1, byteAt]
  cases hd : content.drop n with
  | nil =>
    rw [List.drop_eq_nil_iff] at hd
    simp [List.getElem?_eq_none hd]
  | cons b rest =>
    have : content[n]? = some b := by
      rw [← List.head?_drop, hd]; rfl
    simp [this]

/-- C80, standard input: after any calls, the next byte of the standard input is read, and nothing at its end. -/
theorem C80_stdin (w : World) (cs : List Call) (v : View) : w.answer (⟨(Op.istream 0).code, [v]⟩ :: cs) = byteAt w.stdin (cs.countP (readsFrom 0)) := by
  simpa using answer_read w [] (i := 0) (content := w.stdin) rfl cs v

theorem call_grows (w : World) (st : Streams) (c : Call) : st.inputs.length ≤ (w.call st c).1.inputs.length ∧ st.outputs.length ≤ (w.call st c).1.outputs.length := by
  unfold World.call
  repeat' split
  all_goals simp

theorem after_grows (w : World) (cs : List Call) : (ds : List Call) → (w.after cs).inputs.length ≤ (w.after (ds ++ cs)).inputs.length ∧
    (w.after cs).outputs.length ≤ (w.after (ds ++ cs)).outputs.length
  | [] => by simp
  | d :: ds => ⟨Nat.le_trans (after_grows w cs ds).1 (call_grows w _ d).1, Nat.le_trans (after_grows w cs ds).2 (call_grows w _ d).2⟩

theorem string_ne (s : List Nat) (op more : Nat) : string s ≠ .function op more := by
  cases s <;> simp [string, list, enum]

theorem call_open (w : World) (st : Streams) (c : Call) {i : Nat} : ((w.call st c).2 = .value (result 1 (some (istream i))) → i < (w.call st c).1.inputs.length) ∧
    ((w.call st c).2 = .value (result 1 (some (ostream i))) → i < (w.call st c).1.outputs.length) := by
  unfold World.call
  repeat' split
  all_goals simp [result, istream, ostream, Op.code, enum]
  all_goals first
    | omega
    | skip
  · cases w.env _ <;> simp [string_ne]

/-- C80, files read: when a file has been opened, its bytes are read in the same way, from the start of the file, whatever is done with other streams; the stream is
not one that was opened before. -/
theorem C80_file (w : World) (cs : List Call) (name v : View) {n content : List Nat} (hn : readString name = some n) (hf : w.files n = some content) :
    ∃ i, w.answer (⟨Op.read.code, [name, v]⟩ :: cs) = .value (result 1 (some (istream i))) ∧
      (∀ ds v', w.answer (⟨(Op.istream i).code, [v']⟩ :: (ds ++ ⟨Op.read.code, [name, v]⟩ :: cs)) = byteAt content (ds.countP (readsFrom i))) ∧
      i ≠ 0 ∧ ∀ c cs', c :: cs' <:+ cs → w.answer (c :: cs') ≠ .value (result 1 (some (istream i))) := by
  have h1 : w.call (w.after cs) ⟨Op.read.code, [name, v]⟩ =
      ({ w.after cs with inputs := (w.after cs).inputs ++ [content] }, .value (result 1 (some (istream (w.after cs).inputs.length)))) := by
    simp only [World.call, Op.ofCode_code, readingString_some hn, hf]
  refine ⟨(w.after cs).inputs.length, by rw [World.answer, h1], fun ds v' => answer_read w (⟨Op.read.code, [name, v]⟩ :: cs) (by rw [World.after, h1]; simp) ds v', ?_, ?_⟩
  · have := (after_grows w [] cs).1
    simp only [List.append_nil, World.after, World.start, List.length_cons, List.length_nil] at this
    omega
  · rintro c cs' ⟨ds, rfl⟩ he
    have := (call_open w _ c).1 he
    have := (after_grows w (c :: cs') ds).1
    simp only [World.after] at this
    omega

/-- C80, files that cannot be opened: nothing is the result, and nothing else happens. -/
theorem C80_no_file (w : World) (cs : List Call) (name v : View) {n : List Nat} (hn : readString name = some n) :
    (w.files n = none → w.answer (⟨Op.read.code, [name, v]⟩ :: cs) = .value (result 1 none) ∧ w.after (⟨Op.read.code, [name, v]⟩ :: cs) = w.after cs) ∧
    (w.writable n = false → w.answer (⟨Op.write.code, [name, v]⟩ :: cs) = .value (result 1 none) ∧ w.after (⟨Op.write.code, [name, v]⟩ :: cs) = w.after cs) := by
  refine ⟨fun hf => ?_, fun hf => ?_⟩
  · rw [World.answer, World.after]
    simp only [World.call, Op.ofCode_code, readingString_some hn, hf]
    exact ⟨trivial, trivial⟩
  · rw [World.answer, World.after]
    simp only [World.call, Op.ofCode_code, readingString_some hn, hf]
    exact ⟨rfl, rfl⟩

/-- C80, standard output (`i` = 0) and standard error (`i` = 1): what has been written is the bytes of the calls that write there, in order. -/
theorem C80_stdout (w : World) (cs : List Call) {i : Nat} (hi : i < 2) : (w.after cs).outputs[i]? = some (cs.reverse.filterMap (writesTo i)) := by
  have : (w.after []).outputs[i]? = some [] := by
    match i, hi with
    | 0, _ => rfl
    | 1, _ => rfl
  simpa using after_outputs w [] this cs

/-- C80, files written: the same from when they are opened. -/
theorem C80_write (w : World) (cs : List Call) (name v : View) {n : List Nat} (hn : readString name = some n) (hf : w.writable n = true) :
    ∃ i, w.answer (⟨Op.write.code, [name, v]⟩ :: cs) = .value (result 1 (some (ostream i))) ∧
      (∀ ds, (w.after (ds ++ ⟨Op.write.code, [name, v]⟩ :: cs)).outputs[i]? = some (ds.reverse.filterMap (writesTo i))) ∧
      2 ≤ i ∧ ∀ c cs', c :: cs' <:+ cs → w.answer (c :: cs') ≠ .value (result 1 (some (ostream i))) := by
  have h1 : w.call (w.after cs) ⟨Op.write.code, [name, v]⟩ =
      ({ w.after cs with outputs := (w.after cs).outputs ++ [[]] }, .value (result 1 (some (ostream (w.after cs).outputs.length)))) := by
    simp only [World.call, Op.ofCode_code, readingString_some hn, hf]
    rfl
  refine ⟨(w.after cs).outputs.length, by rw [World.answer, h1], fun ds => ?_, ?_, ?_⟩
  · simpa using after_outputs w (⟨Op.write.code, [name, v]⟩ :: cs) (i := (w.after cs).outputs.length) (content := []) (by rw [World.after, h1]; simp) ds
  · have := (after_grows w [] cs).2
    simp only [List.append_nil, World.after, World.start, List.length_cons, List.length_nil] at this
    omega
  · rintro c cs' ⟨ds, rfl⟩ he
    have := (call_open w _ c).2 he
    have := (after_grows w (c :: cs') ds).2
    simp only [World.after] at this
    omega

/-- The byte written is the one given, if it is one. -/
theorem writesTo_byte (i : Nat) (b : Nat) (hb : b < 256) {x v : View} (hx : readInt x = some (b : Int)) : writesTo i ⟨(Op.ostream i).code, [x, v]⟩ = some b := by
  simp only [writesTo, List.length_cons, List.length_nil, List.getElem?_cons_zero, Option.bind_some, hx, Option.map_some]
  rw [if_pos ⟨trivial, trivial⟩]
  congr 1
  omega

/-- Non-trivial: the second read of three bytes, with another call in between. -/
example (v w : View) : (⟨[72, 105, 10], fun _ => none, fun _ => false, fun _ => none⟩ : World).answer
    [⟨5, [v]⟩, ⟨2, [w, v]⟩, ⟨5, [v]⟩] = .value (result 0 (makeInt 105)) :=
  C80_stdin _ [⟨2, [w, v]⟩, ⟨5, [v]⟩] v

end Verif.Host
