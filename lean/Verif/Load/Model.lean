/-
Model of module loading and linking:
 - FbleLoad, /repo/lib/load.c:236-345
 - LinkInterpreted, /repo/lib/link.c:40-104 ; LoadGenerated/LinkGenerated, link.c:117-200
Module paths are an arbitrary type with decidable equality (`FbleModulePathsEqual`; see C34).
-/
namespace Verif.Load

/-- What `Find` and `FbleParse` say about a module path (load.c:207-233, 317-328): no file; a
file that does not parse (with whatever dependencies were collected before the error); or a file
with the list of modules it refers to. -/
inductive FileResult (P F : Type) where
  | missing
  | bad (file : F) (deps : List P)
  | ok (file : F) (deps : List P)

variable {P F : Type} [DecidableEq P]

/-- `FbleLoadedModule` (fble-load.h:20-38); the parsed value is determined by the path, its
absence (NULL) is `parsed = false`. -/
structure Module (P : Type) where
  path : P
  deps : List P
  parsed : Bool

/-- load.c:42-46 `Stack` element. -/
structure Frame (P : Type) where
  path : P
  deps : List P
  parsed : Bool
  depsLoaded : Nat

/-- The variables of FbleLoad. `stack` has its top first. -/
structure State (P F : Type) where
  modules : List (Module P)
  stack : List (Frame P)
  error : Bool
  buildDeps : List F

/-- Pushing a newly referenced module: load.c:307-328 (also 258-276 for the main module): find,
parse, and give up on its dependencies if that failed. -/
def push (find : P → FileResult P F) (p : P) (s : State P F) : State P F :=
  match find p with
  | .missing =>
    { s with stack := ⟨p, [], false, 0⟩ :: s.stack, error := true }
  | .bad file deps =>
    { s with stack := ⟨p, deps, false, deps.length⟩ :: s.stack, error := true,
             buildDeps := s.buildDeps ++ [file] }
  | .ok file deps =>
    { s with stack := ⟨p, deps, true, 0⟩ :: s.stack, buildDeps := s.buildDeps ++ [file] }

/-- One iteration of the `while (stack != NULL)` loop, load.c:278-337.  `none`: the loop ends. -/
def step (find : P → FileResult P F) (s : State P F) : Option (State P F) :=
  match s.stack with
  | [] => none
  | top :: tail =>
    if h : top.depsLoaded < top.deps.length then
      let ref := top.deps[top.depsLoaded]
      if s.modules.any (fun m => ref = m.path) then
        some { s with stack := { top with depsLoaded := top.depsLoaded + 1 } :: tail }
      else if (top :: tail).any (fun f => ref = f.path) then
        some { s with stack := { top with depsLoaded := top.deps.length } :: tail, error := true }
      else some (push find ref s)
    else
      -- stack->deps_loaded == stack->module.deps.size
      some { s with modules := s.modules ++ [⟨top.path, top.deps, top.parsed⟩], stack := tail }

/-- The loop, with a bound on the number of iterations (`none`: not finished). -/
def loop (find : P → FileResult P F) : Nat → State P F → Option (State P F)
  | 0, _ => none
  | n + 1, s =>
    match step find s with
    | none => some s
    | some s' => loop find n s'

/-- Result of FbleLoad: the module list or NULL, and the build deps. -/
structure Result (P F : Type) where
  modules : Option (List (Module P))
  buildDeps : List F

/-- load.c:236-345 `FbleLoad` (called with a module path), bounded.  If the main module's file is
not found, NULL is returned at once (load.c:243-246). -/
def load (find : P → FileResult P F) (root : P) (fuel : Nat) : Option (Result P F) :=
  match find root with
  | .missing => some ⟨none, []⟩
  | _ =>
    match loop find fuel (push find root ⟨[], [], false, []⟩) with
    | none => none
    | some s => some ⟨if s.error then none else some s.modules, s.buildDeps⟩

/-- `FbleLoad` terminates with the given result. -/
def Loads (find : P → FileResult P F) (root : P) (r : Result P F) : Prop :=
  ∃ fuel, load find root fuel = some r

/-! ### Linking -/

/-- link.c:77-85 inner search: the first earlier module with the path of the dependency. -/
def findIndex (paths : List P) (d : P) : Option Nat := paths.findIdx? (fun p => d = p)

/-- link.c:77-86: the arguments collected for the call of a module; a dependency that is not
found adds nothing. -/
def linkArgs (earlier : List P) (deps : List P) : List Nat := deps.filterMap (findIndex earlier)

/-- One call instruction of the linking code: module function index and argument locals. -/
structure Call where
  func : Nat
  args : List Nat
deriving Repr, DecidableEq

/-- link.c:64-91: the call instructions, `none` if the assertion on the argument count fails.
`done` are the paths of the modules already linked. -/
def linkCode : List P → List (P × List P) → Option (List Call)
  | _, [] => some []
  | done, (p, deps) :: rest =>
    let args := linkArgs done deps
    if args.length = deps.length then
      match linkCode (done ++ [p]) rest with
      | none => none
      | some cs => some (⟨done.length, args⟩ :: cs)
    else none

/-- Running the linking code (calls in order, then return the last local), for a given meaning
of the module functions; `none` is an abort (or a read of an unset local). -/
def runCalls {V : Type} (func : Nat → List V → Option V) : List Call → List V → Option (List V)
  | [], locals => some locals
  | c :: cs, locals =>
    match c.args.mapM (locals[·]?) with
    | none => none
    | some args =>
      match func c.func args with
      | none => none
      | some v => runCalls func cs (locals ++ [v])

/-- The linked program: link.c:93-97 returns local `modulec - 1`. -/
def runProgram {V : Type} (func : Nat → List V → Option V) (modules : List (P × List P)) : Option V :=
  match linkCode [] modules with
  | none => none
  | some cs =>
    match runCalls func cs [] with
    | none => none
    | some locals => locals[modules.length - 1]?

/-- fble-generate.h `FbleGeneratedModule`: path and pointers to the dependencies. -/
inductive Gen (P : Type) where
  | mk (path : P) (deps : List (Gen P))

def Gen.path : Gen P → P | .mk p _ => p
def Gen.deps : Gen P → List (Gen P) | .mk _ d => d

mutual
/-- link.c:117-133 `LoadGenerated`. -/
def loadGenerated (loaded : List (Gen P)) : Gen P → List (Gen P)
  | .mk p deps =>
    if loaded.any (fun m => m.path = p) then loaded
    else loadGenerateds loaded deps ++ [.mk p deps]
def loadGenerateds (loaded : List (Gen P)) : List (Gen P) → List (Gen P)
  | [] => loaded
  | d :: ds => loadGenerateds (loadGenerated loaded d) ds
end

end Verif.Load
