import Verif.Compile.EvalLemmas
/-
Running compiled code: frames, single steps, and what is to be shown of a piece of code.
-/
namespace Verif.Compile

/-! ### Code segments -/

/-- `seg` is found in `code` at `pc`. -/
def At (code : List Instr) (pc : Nat) (seg : List Instr) : Prop := ∀ i, i < seg.length → code[pc + i]? = seg[i]?

theorem At.left {code pc a b} (h : At code pc (a ++ b)) : At code pc a := fun i hi => by
  rw [h i (by simp; omega), List.getElem?_append_left hi]

theorem At.right {code pc a b} (h : At code pc (a ++ b)) : At code (pc + a.length) b := fun i hi => by
  have := h (a.length + i) (by simp; omega)
  rw [Nat.add_assoc, this, List.getElem?_append_right (by omega)]
  congr 1; omega

theorem At.head {code pc x b} (h : At code pc (x :: b)) : code[pc]? = some x := by
  have := h 0 (by simp)
  simpa using this

theorem At.tail {code pc x b} (h : At code pc (x :: b)) : At code (pc + 1) b := At.right (a := [x]) h

/-! ### Frames -/

/-- The slots counted in `cnt` are the same in both frames. -/
structure Keeps (cnt : Var → Nat) (fr fr1 : Frame) : Prop where
  statics : fr1.statics = fr.statics
  args : fr1.args = fr.args
  size : fr1.locals.length = fr.locals.length
  locals : ∀ i, 0 < cnt (.loc i) → fr1.locals[i]? = fr.locals[i]?

theorem Keeps.refl (cnt fr) : Keeps cnt fr fr := ⟨rfl, rfl, rfl, fun _ _ => rfl⟩

theorem Keeps.trans {cnt a b c} (h : Keeps cnt a b) (h' : Keeps cnt b c) : Keeps cnt a c :=
  ⟨h'.statics.trans h.statics, h'.args.trans h.args, h'.size.trans h.size, fun i hi => (h'.locals i hi).trans (h.locals i hi)⟩

theorem Keeps.mono {cnt cnt' a b} (h : Keeps cnt' a b) (hc : ∀ v, 0 < cnt v → 0 < cnt' v) : Keeps cnt a b :=
  ⟨h.statics, h.args, h.size, fun i hi => h.locals i (hc _ hi)⟩

theorem Keeps.adds {sc sc' : Scope} {n vs a b} (h : Keeps sc'.cnt a b) (ha : Adds sc sc' n vs) : Keeps sc.cnt a b :=
  h.mono fun v hv => by rw [ha.cnt]; exact Nat.lt_of_lt_of_le hv (plus_ge _ _ _)

theorem Keeps.get {cnt fr fr1 w} (h : Keeps cnt fr fr1) (hw : 0 < cnt w) : fr1.get w = fr.get w := by
  cases w with
  | static i => simp only [Frame.get, h.statics]
  | arg i => simp only [Frame.get, h.args]
  | loc i => simp only [Frame.get, h.locals i hw]

theorem Keeps.gets {cnt fr fr1} (h : Keeps cnt fr fr1) : (ws : List Var) → (∀ w ∈ ws, 0 < cnt w) → fr1.gets ws = fr.gets ws
  | [], _ => rfl
  | w :: ws, hw => by
    have := Keeps.gets h ws fun w' hw' => hw w' (List.mem_cons_of_mem _ hw')
    simp only [Frame.gets] at this
    simp only [Frame.gets, List.mapM_cons, h.get (hw w (by simp)), this]

theorem gets_cons {fr : Frame} {w ws v vs} (h : fr.get w = some v) (h' : fr.gets ws = some vs) : fr.gets (w :: ws) = some (v :: vs) := by
  simp only [Frame.gets] at h'
  simp [Frame.gets, List.mapM_cons, h, h']

theorem gets_append {fr : Frame} : {ws xs : List Var} → {vs us : List TVal} → fr.gets ws = some vs → fr.gets xs = some us →
    fr.gets (ws ++ xs) = some (vs ++ us)
  | [], _, vs, us, h, h' => by simp [Frame.gets] at h; subst h; exact h'
  | w :: ws, xs, vs, us, h, h' => by
    simp only [Frame.gets, List.mapM_cons] at h
    cases hw : fr.get w with
    | none => simp [hw] at h
    | some x =>
      cases hws : List.mapM fr.get ws with
      | none => simp [hw, hws] at h
      | some ys =>
        simp [hw, hws] at h
        subst h
        exact gets_cons hw (gets_append hws h')

theorem gets_reverse {fr : Frame} : {ws : List Var} → {vs : List TVal} → fr.gets ws = some vs → fr.gets ws.reverse = some vs.reverse
  | [], vs, h => by simp [Frame.gets] at h; subst h; rfl
  | w :: ws, vs, h => by
    simp only [Frame.gets, List.mapM_cons] at h
    cases hw : fr.get w with
    | none => simp [hw] at h
    | some x =>
      cases hws : List.mapM fr.get ws with
      | none => simp [hw, hws] at h
      | some ys =>
        simp [hw, hws] at h
        subst h
        simp only [List.reverse_cons]
        exact gets_append (gets_reverse hws) (gets_cons hw rfl)

theorem gets_get {fr : Frame} : {ws : List Var} → {vs : List TVal} → fr.gets ws = some vs →
    ws.length = vs.length ∧ ∀ (i : Nat) w, ws[i]? = some w → fr.get w = vs[i]?
  | [], vs, h => by simp [Frame.gets] at h; subst h; simp
  | w :: ws, vs, h => by
    simp only [Frame.gets, List.mapM_cons] at h
    cases hw : fr.get w with
    | none => simp [hw] at h
    | some x =>
      cases hws : List.mapM fr.get ws with
      | none => simp [hw, hws] at h
      | some ys =>
        simp [hw, hws] at h
        subst h
        obtain ⟨h1, h2⟩ := gets_get hws
        refine ⟨by simp [h1], fun i w' hi => ?_⟩
        cases i with
        | zero => simp at hi; subst hi; simpa using hw
        | succ i => simpa using h2 i w' (by simpa using hi)

theorem put_ok {fr : Frame} {dest : Nat} (v : TVal) (h : dest < fr.locals.length) :
    ∃ fr1, fr.put dest v = some fr1 ∧ fr1.get (.loc dest) = some v ∧ ∀ cnt : Var → Nat, cnt (.loc dest) = 0 → Keeps cnt fr fr1 := by
  refine ⟨_, if_pos h, by simp [Frame.get, h], fun cnt hc => ⟨rfl, rfl, by simp, fun i hi => ?_⟩⟩
  by_cases hd : dest = i
  · subst hd; omega
  · simp [hd]

/-! ### Environments and frames -/

/-- The variables of the expression have related values in the environment and in the frame. -/
structure ERel (sc : Scope) (env : Env) (fr : Frame) : Prop where
  statics : All2 VRel env.statics fr.statics
  args : All2 VRel env.args fr.args
  ns : env.statics.length = sc.nstatics
  na : env.args.length = sc.nargs
  len : env.locals.length = sc.vars.length
  locals : ∀ (i : Nat) w, sc.vars[i]? = some (some w) → ∃ x y, env.locals[i]? = some (some x) ∧ fr.get w = some y ∧ VRel x y

theorem ERel.get {sc env fr v w} (h : ERel sc env fr) (hg : getVar sc v = some w) :
    ∃ x y, env.get v = some x ∧ fr.get w = some y ∧ VRel x y := by
  cases v with
  | static i =>
    simp only [getVar] at hg
    split at hg
    · next hi =>
      cases hg
      have h1 : i < env.statics.length := by rw [h.ns]; exact hi
      have h2 : i < fr.statics.length := by rw [← h.statics.length_eq]; exact h1
      exact ⟨_, _, List.getElem?_eq_getElem h1, List.getElem?_eq_getElem h2, h.statics.get i h1 h2⟩
    · cases hg
  | arg i =>
    simp only [getVar] at hg
    split at hg
    · next hi =>
      cases hg
      have h1 : i < env.args.length := by rw [h.na]; exact hi
      have h2 : i < fr.args.length := by rw [← h.args.length_eq]; exact h1
      exact ⟨_, _, List.getElem?_eq_getElem h1, List.getElem?_eq_getElem h2, h.args.get i h1 h2⟩
    · cases hg
  | loc i =>
    simp only [getVar] at hg
    have hg : sc.vars[i]? = some (some w) := by
      cases hv : sc.vars[i]? with
      | none => simp [hv] at hg
      | some o => simp [hv] at hg; rw [hg]
    obtain ⟨x, y, h1, h2, h3⟩ := h.locals i w hg
    exact ⟨x, y, by simp [Env.get, h1], h2, h3⟩

theorem ERel.gets {sc env fr} (h : ERel sc env fr) : {vs ws : List Var} → vs.mapM (getVar sc) = some ws →
    ∃ xs ys, capture env vs = some xs ∧ fr.gets ws = some ys ∧ All2 VRel xs ys ∧ xs.length = vs.length
  | [], ws, hg => by simp at hg; subst hg; exact ⟨[], [], rfl, rfl, .nil, rfl⟩
  | v :: vs, ws, hg => by
    simp only [List.mapM_cons] at hg
    cases hv : getVar sc v with
    | none => simp [hv] at hg
    | some w =>
      cases hvs : List.mapM (getVar sc) vs with
      | none => simp [hv, hvs] at hg
      | some ws' =>
        simp [hv, hvs] at hg
        subst hg
        obtain ⟨x, y, h1, h2, h3⟩ := h.get hv
        obtain ⟨xs, ys, h4, h5, h6, h7⟩ := ERel.gets h hvs
        refine ⟨x :: xs, y :: ys, ?_, gets_cons h2 h5, .cons h3 h6, by simp [h7]⟩
        simp only [capture] at h4
        simp [capture, List.mapM_cons, h1, h4]

theorem ERel.keeps {sc sc1 env fr fr1} (h : ERel sc env fr) (hi : SInv sc) (hk : Keeps sc.cnt fr fr1) (hs : Same sc sc1) : ERel sc1 env fr1 where
  statics := by rw [hk.statics]; exact h.statics
  args := by rw [hk.args]; exact h.args
  ns := h.ns.trans hs.nstatics.symm
  na := h.na.trans hs.nargs.symm
  len := by rw [hs.vars]; exact h.len
  locals := fun i w hw => by
    rw [hs.vars] at hw
    obtain ⟨x, y, h1, h2, h3⟩ := h.locals i w hw
    exact ⟨x, y, h1, by rw [hk.get (hi.vars w (List.mem_of_getElem? hw))]; exact h2, h3⟩

/-- New local variables. -/
theorem ERel.extend {sc sc1 : Scope} {env : Env} {fr : Frame} {xs : List (Option SVal)} {ws : List (Option Var)} (h : ERel sc env fr)
    (hn : sc1.nstatics = sc.nstatics) (ha : sc1.nargs = sc.nargs) (hv : sc1.vars = sc.vars ++ ws) (hl : xs.length = ws.length)
    (hx : ∀ (i : Nat) w, ws[i]? = some (some w) → ∃ x y, xs[i]? = some (some x) ∧ fr.get w = some y ∧ VRel x y) :
    ERel sc1 { env with locals := env.locals ++ xs } fr where
  statics := h.statics
  args := h.args
  ns := h.ns.trans hn.symm
  na := h.na.trans ha.symm
  len := by simp [hv, h.len, hl]
  locals := fun i w hw => by
    rw [hv] at hw
    by_cases hi : i < sc.vars.length
    · rw [List.getElem?_append_left hi] at hw
      obtain ⟨x, y, h1, h2, h3⟩ := h.locals i w hw
      exact ⟨x, y, by rw [List.getElem?_append_left (by rw [h.len]; exact hi)]; exact h1, h2, h3⟩
    · rw [List.getElem?_append_right (by omega)] at hw
      obtain ⟨x, y, h1, h2, h3⟩ := hx _ w hw
      exact ⟨x, y, by rw [List.getElem?_append_right (by rw [h.len]; omega), h.len]; exact h1, h2, h3⟩

/-! ### Releasing changes little -/

theorem release_same {v : Var} {sc sc' : Scope} (h : release v sc = some sc') : sc'.nlocals = sc.nlocals ∧ sc'.pc = sc.pc ∧ sc'.prof = sc.prof := by
  unfold release at h
  split at h
  · cases h
  · split at h
    · cases h; exact ⟨rfl, rfl, rfl⟩
    · cases h
  · cases h; exact ⟨rfl, rfl, rfl⟩

theorem releaseAll_same : {vs : List Var} → {sc sc' : Scope} → releaseAll vs sc = some sc' →
    sc'.nlocals = sc.nlocals ∧ sc'.pc = sc.pc ∧ sc'.prof = sc.prof
  | [], _, _, h => by cases h; exact ⟨rfl, rfl, rfl⟩
  | v :: vs, sc, sc', h => by
    simp only [releaseAll, Option.bind_eq_some_iff] at h
    obtain ⟨sc1, h1, h2⟩ := h
    obtain ⟨a, b, c⟩ := release_same h1
    obtain ⟨a', b', c'⟩ := releaseAll_same h2
    exact ⟨a'.trans a, b'.trans b, c'.trans c⟩

theorem releaseOpt_same {v : Option Var} {sc sc' : Scope} (h : releaseOpt v sc = some sc') :
    sc'.nlocals = sc.nlocals ∧ sc'.pc = sc.pc ∧ sc'.prof = sc.prof := by
  cases v with
  | none => cases h; exact ⟨rfl, rfl, rfl⟩
  | some v => exact release_same h

theorem popVars_same : {n : Nat} → {sc sc' : Scope} → popVars n sc = some sc' →
    sc'.nlocals = sc.nlocals ∧ sc'.pc = sc.pc ∧ sc'.prof = sc.prof
  | 0, _, _, h => by cases h; exact ⟨rfl, rfl, rfl⟩
  | n + 1, sc, sc', h => by
    simp only [popVars, Option.bind_eq_some_iff] at h
    obtain ⟨sc1, h1, h2⟩ := h
    have h3 : sc1.nlocals = sc.nlocals ∧ sc1.pc = sc.pc ∧ sc1.prof = sc.prof := by
      simp only [popVar] at h1
      split at h1
      · cases h1
      · have := releaseOpt_same h1
        exact this
    obtain ⟨a, b, c⟩ := h3
    obtain ⟨a', b', c'⟩ := popVars_same h2
    exact ⟨a'.trans a, b'.trans b, c'.trans c⟩

theorem afterBranch_same {exit r bl sc z} (h : afterBranch exit r bl sc = some z) :
    z.2.nlocals = sc.nlocals ∧ z.2.pc = sc.pc + if exit then 0 else 2 := by
  unfold afterBranch at h
  cases exit with
  | true =>
    simp only [if_true, Option.map_eq_some_iff] at h
    obtain ⟨sc1, h1, rfl⟩ := h
    have := releaseOpt_same h1
    exact ⟨this.1, this.2.1⟩
  | false =>
    simp only [Bool.false_eq_true, if_false] at h
    split at h
    · cases h
    · simp only [Option.map_eq_some_iff] at h
      obtain ⟨sc1, h1, rfl⟩ := h
      have := release_same h1
      refine ⟨this.1, ?_⟩
      show sc1.pc + 1 = _
      rw [this.2.1]; rfl

theorem finSc_nlocals (exit sc) : (finSc exit sc).nlocals = (newLocal sc).2.nlocals := by
  unfold finSc compileExit; cases exit <;> rfl

theorem slot_lt (exit sc) : slot sc < (finSc exit sc).nlocals := by rw [finSc_nlocals]; exact newLocal_lt sc

theorem finSc_le {exit} {sc : Scope} (h : SInv sc) : sc.nlocals ≤ (finSc exit sc).nlocals := by
  rw [finSc_nlocals]; exact (newLocal_adds h.slots).nlocals

/-! ### What is to be shown -/

/-- The setting of a run: what calls do, what the caller does with the outcome of the function (`fin`),
and what is done with the value of the expression on the other side (`k0`). -/
structure Ctx where
  app : SVal → SVal → St SFn → SRes SVal
  call : TVal → List TVal → St TFn → TRes TVal
  code : List Instr
  k0 : SVal → St SFn → SRes SVal
  fin : Outcome → St TFn → TRes TVal
  m : Nat

/-- The whole rest of the run. -/
def Ctx.X (c : Ctx) (pc : Nat) (fr : Frame) (s : St TFn) : TRes TVal := (exec c.call c.code pc fr s).bind c.fin

abbrev Ctx.Agree (c : Ctx) : SRes SVal → TRes TVal → Prop := RRel c.m VRel

structure Ctx.Ok (c : Ctx) : Prop where
  call : ∀ {f f' as as' s s'}, as ≠ [] → VRel f f' → All2 VRel as as' → SRel s s' → s.fuel ≤ c.m →
    c.Agree (applyAll c.app f as s) (c.call f' as' s')
  strict : ∀ {f a s}, s.fuel ≤ c.m → c.app f a s = (Compile.strict s f).bind fun g _ =>
    match g with
    | .fn _ => c.app f a s
    | _ => .crash
  ret : ∀ {v v' s s'}, VRel v v' → SRel s s' → s.fuel ≤ c.m → c.Agree (c.k0 v s) (c.fin (.ret v') s')
  tail : ∀ {f f' as as' s s' g}, as ≠ [] → VRel f f' → All2 VRel as as' → SRel s s' → s.fuel ≤ c.m →
    Compile.strict s' f' = .ok (.fn g) s' →
    c.Agree ((applyAll c.app f as s).bind c.k0) (c.fin (.tail f' as') s')

/-- `k` agrees with the run from `pc` on, when the value is in `w`, and the counted slots are as they
were in `fr`. -/
def Ctx.Cont (c : Ctx) (cnt : Var → Nat) (fr : Frame) (w : Var) (pc : Nat) (k : SVal → St SFn → SRes SVal) : Prop :=
  ∀ v v' s s' fr1, VRel v v' → SRel s s' → s.fuel ≤ c.m → Keeps cnt fr fr1 → fr1.get w = some v' → c.Agree (k v s) (c.X pc fr1 s')

/-- The code from `pc` to `pc1` computes `r` into `w`. -/
def Ctx.Value (c : Ctx) (r : SRes SVal) (pc : Nat) (fr : Frame) (s' : St TFn) (cnt : Var → Nat) (w : Var) (pc1 : Nat) : Prop :=
  ∀ k, c.Cont cnt fr w pc1 k → c.Agree (r.bind k) (c.X pc fr s')

/-- The code at `pc` computes `r`, and ends the function if `exit`. -/
def Ctx.Sem (c : Ctx) (exit : Bool) (r : SRes SVal) (pc : Nat) (fr : Frame) (s' : St TFn) (cnt : Var → Nat) (res : Option Var) (pc1 : Nat) : Prop :=
  if exit then c.Agree (r.bind c.k0) (c.X pc fr s') else ∃ w, res = some w ∧ c.Value r pc fr s' cnt w pc1

/-- The same for a list of values. -/
def Ctx.Conts (c : Ctx) (cnt : Var → Nat) (fr : Frame) (ws : List Var) (pc : Nat) (k : List SVal → St SFn → SRes SVal) : Prop :=
  ∀ vs vs' s s' fr1, All2 VRel vs vs' → SRel s s' → s.fuel ≤ c.m → Keeps cnt fr fr1 → fr1.gets ws = some vs' →
    c.Agree (k vs s) (c.X pc fr1 s')

def Ctx.Values (c : Ctx) (r : SRes (List SVal)) (pc : Nat) (fr : Frame) (s' : St TFn) (cnt : Var → Nat) (ws : List Var) (pc1 : Nat) : Prop :=
  ∀ k, c.Conts cnt fr ws pc1 k → c.Agree (r.bind k) (c.X pc fr s')

theorem Ctx.X_step (c : Ctx) {pc i} (h : c.code[pc]? = some i) (fr s) :
    c.X pc fr s = (step c.call i pc fr s).bind fun nx s =>
      match nx with
      | .done o => c.fin o s
      | .go pc' fr => if pc < pc' then c.X pc' fr s else .wild := by
  obtain ⟨hlt, hi⟩ := List.getElem?_eq_some_iff.mp h
  unfold Ctx.X
  rw [exec, dif_pos hlt, hi, bind_assoc]
  congr; funext nx s
  cases nx with
  | done o => rfl
  | go pc' fr =>
    simp only
    split <;> rfl

/-- An instruction that stores a value. -/
theorem Ctx.X_put (c : Ctx) {pc i fr s dest} {v : TVal} {s1 : St TFn} (h : c.code[pc]? = some i)
    (hs : step c.call i pc fr s = setNext pc fr dest v s1) (hd : dest < fr.locals.length) :
    ∃ fr1, c.X pc fr s = c.X (pc + 1) fr1 s1 ∧ fr1.get (.loc dest) = some v ∧
      ∀ cnt : Var → Nat, cnt (.loc dest) = 0 → Keeps cnt fr fr1 := by
  obtain ⟨fr1, h1, h2, h3⟩ := put_ok v hd
  refine ⟨fr1, ?_, h2, h3⟩
  rw [c.X_step h, hs]
  simp [setNext, h1, orWild, Res.bind]

/-- The same for an instruction whose value is computed by a run. -/
theorem Ctx.put_bind (c : Ctx) {pc i fr s' dest} {cnt : Var → Nat} {r : SRes SVal} {r' : TRes TVal} {k} (h : c.code[pc]? = some i)
    (hs : step c.call i pc fr s' = r'.bind fun v s => setNext pc fr dest v s) (hd : dest < fr.locals.length)
    (hc : cnt (.loc dest) = 0) (hr : RRel c.m VRel r r') (hk : c.Cont cnt fr (.loc dest) (pc + 1) k) :
    c.Agree (r.bind k) (c.X pc fr s') := by
  rw [c.X_step h, hs, bind_assoc]
  refine hr.bind fun v v' s s' hv hS hf => ?_
  obtain ⟨fr1, h1, h2, h3⟩ := put_ok v' hd
  simp only [setNext, h1, orWild, Res.bind, Nat.lt_succ_self, if_true]
  exact hk v v' s s' fr1 hv hS hf (h3 _ hc) h2

theorem sem_fin {c : Ctx} (hc : c.Ok) {exit r pc fr s' cnt w pc1 pc2} {sc : Scope} (h : c.Value r pc fr s' cnt w pc1)
    (ha : At c.code pc1 (compileExit exit w sc).1) (hp : pc2 = pc1 + (compileExit exit w sc).1.length) :
    c.Sem exit r pc fr s' cnt (some w) pc2 := by
  unfold Ctx.Sem
  cases exit with
  | true =>
    rw [if_pos rfl]
    refine h _ fun v v' s s' fr1 hv hs hf hk hg => ?_
    rw [c.X_step (At.head ha)]
    simp only [step, hg, orWild, Res.bind]
    exact hc.ret hv hs hf
  | false =>
    rw [if_neg (by simp)]
    exact ⟨w, rfl, by rw [hp]; exact h⟩

theorem Ctx.Sem.value {c : Ctx} {r pc fr s' cnt w pc1} (h : c.Sem false r pc fr s' cnt (some w) pc1) : c.Value r pc fr s' cnt w pc1 := by
  unfold Ctx.Sem at h
  rw [if_neg (by simp)] at h
  obtain ⟨w', h1, h2⟩ := h
  cases h1
  exact h2

end Verif.Compile
