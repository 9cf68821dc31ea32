/-!
# What a `task_` holds and returns (include/stlab/concurrency/task.hpp:37-282)

`Verif/Task.lean` follows who owns and destroys the function objects. Here the function objects have types and
states, so that the observers (`operator bool`, the comparisons with `nullptr`, `target_type`, `target`), the
choice between the small and the large model, the arguments, results and exceptions of calls, and exceptions thrown while
constructing or moving a function object can be followed.

Types are numbers, and so are the states of a function object (what it captures, the address held by a function
pointer, the target of a `std::function`). What the types do is a parameter (`Types`). Undefined behaviour is
the outcome `none`.
-/

namespace Verif.TaskTarget

/-- Pointwise update. -/
def upd {α : Type} (f : Nat → α) (k : Nat) (v : α) : Nat → α := fun i => if i = k then v else f i

/-- What a call returns: a value, a reference to a cell of memory, or an exception. -/
inductive Ret where
  | val (n : Nat)
  | ref (a : Nat)
  | exc (e : Nat)
  deriving DecidableEq, Repr

/-- The kinds of types `maybe_empty` distinguishes (lines 39-42). -/
inductive Kind where
  /-- a pointer to function -/
  | pointer
  /-- a pointer to member -/
  | memberPointer
  /-- `std::function<R(Args...)>` with the signature of the task -/
  | sameFunction
  /-- anything else: lambdas and other classes, `std::function` with another signature, another `task_` -/
  | other
  deriving DecidableEq, Repr

/-- The callable types of a program. -/
structure Types where
  kind : Nat → Kind
  /-- the object is a null pointer, an empty `std::function` or an empty `task_` -/
  null : Nat → Nat → Bool
  /-- `sizeof` and `alignof` of `model<F, true>` -/
  size : Nat → Nat
  align : Nat → Nat
  /-- copying or moving the argument into the task throws (for a large type also when allocation fails) -/
  ctorThrows : Nat → Nat → Bool
  /-- the move constructor of the function object throws -/
  moveThrows : Nat → Nat → Bool
  /-- the state the move constructor leaves behind -/
  left : Nat → Nat → Nat
  /-- a call, in a state, with an argument and a memory: result, new state and new memory -/
  call : Nat → Nat → Nat → (Nat → Nat) → Ret × Nat × (Nat → Nat)
  /-- `sizeof(void*)` and `alignof(std::max_align_t)` -/
  ptrSize : Nat
  maxAlign : Nat
  /-- the task's signature is `noexcept` -/
  noexc : Bool

/-- `maybe_empty` (lines 39-42). -/
def maybeEmpty (P : Types) (ty : Nat) : Bool :=
  match P.kind ty with
  | .pointer => true
  | .memberPointer => true
  | .sameFunction => true
  | .other => false

/-- `is_empty` (lines 44-52). -/
def isEmpty (P : Types) (ty st : Nat) : Bool := if maybeEmpty P ty then P.null ty st else false

/-- `small_size` (lines 187-189). -/
def smallSize (P : Types) : Nat := max (P.maxAlign * 2) (P.ptrSize * 8) - max P.maxAlign (P.ptrSize * 2)

/-- Whether the function object is kept in `_model` (lines 209-213). -/
def isSmall (P : Types) (ty : Nat) : Bool := decide (P.size ty ≤ smallSize P) && decide (P.align ty ≤ P.maxAlign)

/-- Which vtable `_vtable_ptr` points to: the empty one (lines 146-169), `model<F, true>` (lines 67-103) or
`model<F, false>` (lines 105-144). -/
inductive VT where
  | empty
  | small (ty : Nat)
  | large (ty : Nat)
  deriving DecidableEq, Repr

/-- What is stored in `_model`. -/
inductive Slot where
  /-- no object: never constructed, or destroyed -/
  | raw
  /-- a null `std::unique_ptr` -/
  | null
  /-- a function object with this state (small), or a `std::unique_ptr` to it (large) -/
  | at (st : Nat)
  deriving DecidableEq, Repr

/-- A `task_` object (lines 191-193; `_invoke` always belongs to the model `_vtable_ptr` belongs to). -/
structure Obj where
  vt : VT
  slot : Slot
  deriving DecidableEq, Repr

/-- What a program sees of an operation. -/
inductive Out where
  | ret (r : Ret)
  /-- `std::bad_function_call` -/
  | badCall
  /-- the construction threw -/
  | threw
  | bool (b : Bool)
  /-- `target_type`; `none`: `typeid(void)` -/
  | type (ty : Option Nat)
  /-- `target<T>()`; `none`: null, `some st`: points to a function object with state `st` -/
  | target (st : Option Nat)
  deriving DecidableEq, Repr

structure World where
  /-- the task objects; `none`: not constructed. Number 0 is for temporaries. -/
  obj : Nat → Option Obj := fun _ => none
  mem : Nat → Nat := fun _ => 0
  out : List Out := []
  /-- `std::terminate` has been called: nothing happens any more -/
  dead : Bool := false

def emit (W : World) (o : Out) : World := { W with out := W.out ++ [o] }

/-- `_vtable_ptr->dtor(&_model)` (lines 73, 111, 147); leaves raw storage. -/
def dtorModel (W : World) (x : Nat) (o : Obj) : Option World :=
  match o.vt, o.slot with
  | .empty, _ => some { W with obj := upd W.obj x (some ⟨o.vt, .raw⟩) }
  | .small _, .at _ => some { W with obj := upd W.obj x (some ⟨o.vt, .raw⟩) }
  | .large _, .at _ => some { W with obj := upd W.obj x (some ⟨o.vt, .raw⟩) }
  | .large _, .null => some { W with obj := upd W.obj x (some ⟨o.vt, .raw⟩) }
  | _, _ => none

/-- `_vtable_ptr->move_ctor(&y._model, &x._model)` (lines 74-76, 112-114, 148), `x`'s vtable being set to
`y`'s before. It is `noexcept`: an exception of the function object's move constructor ends the program. -/
def moveModel (P : Types) (W : World) (x y : Nat) (o : Obj) : Option World :=
  match o.vt, o.slot with
  | .empty, _ => some { W with obj := upd W.obj x (some ⟨.empty, .raw⟩) }
  | .small ty, .at st =>
    if P.moveThrows ty st then some { W with dead := true }
    else some { W with obj := upd (upd W.obj y (some ⟨.small ty, .at (P.left ty st)⟩)) x
                                  (some ⟨.small ty, .at st⟩) }
  | .large ty, .at st =>
    some { W with obj := upd (upd W.obj y (some ⟨.large ty, .null⟩)) x (some ⟨.large ty, .at st⟩) }
  | .large ty, .null => some { W with obj := upd W.obj x (some ⟨.large ty, .null⟩) }
  | _, _ => none

/-- Default constructor, and constructor from `nullptr` (lines 198-199). -/
def ctor (W : World) (x : Nat) : Option World :=
  match W.obj x with
  | none => some { W with obj := upd W.obj x (some ⟨.empty, .raw⟩) }
  | some _ => none

/-- `task_(F&& f)` (lines 206-220). The vtable is set after the function object has been constructed (lines
217-219); if that throws there is no task. -/
def ctorF (P : Types) (W : World) (x ty st : Nat) : Option World :=
  match W.obj x with
  | some _ => none
  | none =>
    if isEmpty P ty st then some { W with obj := upd W.obj x (some ⟨.empty, .raw⟩) }
    else if P.ctorThrows ty st then some (emit W .threw)
    else some { W with obj := upd W.obj x (some ⟨if isSmall P ty then .small ty else .large ty, .at st⟩) }

/-- Move constructor (lines 202-204): `x` from `y`. -/
def moveCtor (P : Types) (W : World) (x y : Nat) : Option World :=
  match W.obj x, W.obj y with
  | none, some o => moveModel P W x y o
  | _, _ => none

/-- Move assignment (lines 226-232): `x = std::move(y)`. -/
def assign (P : Types) (W : World) (x y : Nat) : Option World :=
  match W.obj x with
  | none => none
  | some o =>
    match dtorModel W x o with
    | none => none
    | some W1 =>
      match W1.obj y with
      | none => none
      | some o' => moveModel P W1 x y o'

/-- Destructor (line 222). -/
def dtor (W : World) (x : Nat) : Option World :=
  match W.obj x with
  | none => none
  | some o =>
    match dtorModel W x o with
    | none => none
    | some W1 => some { W1 with obj := upd W1.obj x none }

/-- Go on unless the program has been terminated. -/
def andThen (W : Option World) (f : World → Option World) : Option World :=
  match W with
  | none => none
  | some W => if W.dead then some W else f W

/-- `x = f` (lines 236-241): through a temporary. If its construction throws the assignment is not reached. -/
def assignF (P : Types) (W : World) (x ty st : Nat) : Option World :=
  match ctorF P W 0 ty st with
  | none => none
  | some W =>
    match W.obj 0 with
    | none => some W
    | some _ => andThen (assign P W x 0) fun W => dtor W 0

/-- `x = nullptr` (line 234): through a temporary. -/
def reset (P : Types) (W : World) (x : Nat) : Option World :=
  andThen (ctor W 0) fun W => andThen (assign P W x 0) fun W => dtor W 0

/-- `swap` (lines 243, 269): `std::swap`. -/
def swap (P : Types) (W : World) (x y : Nat) : Option World :=
  andThen (moveCtor P W 0 x) fun W => andThen (assign P W x y) fun W => andThen (assign P W y 0) fun W => dtor W 0

/-- The return type of `operator()` is `auto` (line 265): a reference is turned into a copy of what it refers
to. -/
def decay (m : Nat → Nat) : Ret → Ret
  | .ref a => .val (m a)
  | r => r

/-- `operator()` (lines 264-267; the models' `invoke` in lines 86, 123, 150-160). -/
def call (P : Types) (W : World) (x arg : Nat) : Option World :=
  match W.obj x with
  | none => none
  | some o =>
    match o.vt, o.slot with
    | .empty, _ => if P.noexc then some { W with dead := true } else some (emit W .badCall)
    | .small ty, .at st =>
      let r := P.call ty st arg W.mem
      some (emit { W with mem := r.2.2, obj := upd W.obj x (some ⟨.small ty, .at r.2.1⟩) }
        (.ret (decay r.2.2 r.1)))
    | .large ty, .at st =>
      let r := P.call ty st arg W.mem
      some (emit { W with mem := r.2.2, obj := upd W.obj x (some ⟨.large ty, .at r.2.1⟩) }
        (.ret (decay r.2.2 r.1)))
    | _, _ => none

/-- `_vtable_ptr->pointer(&_model)` and `const_pointer` (lines 91-94, 128-133, 162-163): null, or the function
object with its state. -/
def pointer (o : Obj) : Option (Option Nat) :=
  match o.vt, o.slot with
  | .empty, _ => some none
  | .small _, .at st => some (some st)
  | .large _, .at st => some (some st)
  | .large _, .null => some none
  | _, _ => none

/-- `target_type` (lines 247-249; lines 90, 127, 161). -/
def targetType (o : Obj) : Option Nat :=
  match o.vt with
  | .empty => none
  | .small ty => some ty
  | .large ty => some ty

/-- `operator bool` (line 245). -/
def toBool (o : Obj) : Option Bool := (pointer o).map (·.isSome)

/-- `target<T>()` (lines 251-262). -/
def target (o : Obj) (ty : Nat) : Option (Option Nat) := if targetType o = some ty then pointer o else some none

/-- Operations of a program on its tasks `1, 2, ...`. -/
inductive Op where
  | ctor (x : Nat)
  | ctorF (x ty st : Nat)
  | moveCtor (x y : Nat)
  | assign (x y : Nat)
  | assignF (x ty st : Nat)
  | reset (x : Nat)
  | swap (x y : Nat)
  | dtor (x : Nat)
  | call (x arg : Nat)
  /-- `bool(x)` -/
  | bool (x : Nat)
  /-- `x == nullptr` (lines 270-275) -/
  | isNull (x : Nat)
  /-- `x != nullptr` (lines 276-281) -/
  | notNull (x : Nat)
  | type (x : Nat)
  /-- `x.target<T>()` and a look at what it points to -/
  | target (x ty : Nat)
  /-- `if (auto p = x.target<T>()) *p = v;` -/
  | set (x ty st : Nat)
  deriving DecidableEq, Repr

/-- Look at a task. -/
def look (W : World) (x : Nat) (f : Obj → Option Out) : Option World :=
  match W.obj x with
  | none => none
  | some o => (f o).map (emit W)

/-- Write through `target<T>()`. -/
def set (W : World) (x ty st : Nat) : Option World :=
  match W.obj x with
  | none => none
  | some o =>
    match target o ty with
    | none => none
    | some none => some W
    | some (some _) => some { W with obj := upd W.obj x (some ⟨o.vt, .at st⟩) }

def run (P : Types) (W : World) : Op → Option World
  | .ctor x => ctor W x
  | .ctorF x ty st => ctorF P W x ty st
  | .moveCtor x y => moveCtor P W x y
  | .assign x y => assign P W x y
  | .assignF x ty st => assignF P W x ty st
  | .reset x => reset P W x
  | .swap x y => swap P W x y
  | .dtor x => dtor W x
  | .call x arg => call P W x arg
  | .bool x => look W x fun o => (toBool o).map .bool
  | .isNull x => look W x fun o => (toBool o).map fun b => .bool (!b)
  | .notNull x => look W x fun o => (toBool o).map .bool
  | .type x => look W x fun o => some (.type (targetType o))
  | .target x ty => look W x fun o => (target o ty).map .target
  | .set x ty st => set W x ty st

def exec (P : Types) (W : World) : List Op → Option World
  | [] => some W
  | a :: as => andThen (run P W a) fun W => exec P W as

/-! ## What a task should be -/

/-- The content of a task as its user sees it. -/
inductive SV where
  | empty
  | holds (ty st : Nat)
  /-- moved from: may only be assigned to or destroyed -/
  | moved
  deriving DecidableEq, Repr

/-- The task variables of a program. -/
structure Spec where
  sv : Nat → Option SV := fun _ => none
  mem : Nat → Nat := fun _ => 0
  out : List Out := []
  dead : Bool := false

def say (S : Spec) (o : Out) : Spec := { S with out := S.out ++ [o] }

/-- Content of a task that has been moved from. -/
def from_ : SV → SV
  | .empty => .empty
  | _ => .moved

/-- Content of a task made from a callable: empty if the callable is a null pointer (to a function or member) or
an empty `std::function` of the same signature. -/
def given (P : Types) (ty st : Nat) : SV :=
  if P.kind ty ≠ .other ∧ P.null ty st = true then .empty else .holds ty st

/-- What the operations mean, and which are allowed: variables must (not) exist, a task is not move-assigned to
or swapped with itself, and a moved-from task is not called or looked at. A call calls the callable itself,
with the same argument, and returns what it returns or throws what it throws. -/
def specRun (P : Types) (S : Spec) : Op → Option Spec
  | .ctor x => if 0 < x ∧ S.sv x = none then some { S with sv := upd S.sv x (some .empty) } else none
  | .ctorF x ty st =>
    if 0 < x ∧ S.sv x = none then
      if given P ty st ≠ .empty ∧ P.ctorThrows ty st = true then some (say S .threw)
      else some { S with sv := upd S.sv x (some (given P ty st)) }
    else none
  | .moveCtor x y =>
    match S.sv y with
    | some v => if 0 < x ∧ S.sv x = none then
        some { S with sv := upd (upd S.sv y (some (from_ v))) x (some v) } else none
    | none => none
  | .assign x y =>
    match S.sv x, S.sv y with
    | some _, some v => if x ≠ y then some { S with sv := upd (upd S.sv y (some (from_ v))) x (some v) } else none
    | _, _ => none
  | .assignF x ty st =>
    if S.sv x ≠ none then
      if given P ty st ≠ .empty ∧ P.ctorThrows ty st = true then some (say S .threw)
      else some { S with sv := upd S.sv x (some (given P ty st)) }
    else none
  | .reset x => if S.sv x ≠ none then some { S with sv := upd S.sv x (some .empty) } else none
  | .swap x y =>
    match S.sv x, S.sv y with
    | some v, some w => if x ≠ y then some { S with sv := upd (upd S.sv x (some w)) y (some v) } else none
    | _, _ => none
  | .dtor x => if S.sv x ≠ none then some { S with sv := upd S.sv x none } else none
  | .call x arg =>
    match S.sv x with
    | some .empty => if P.noexc then some { S with dead := true } else some (say S .badCall)
    | some (.holds ty st) =>
      let r := P.call ty st arg S.mem
      some (say { S with mem := r.2.2, sv := upd S.sv x (some (.holds ty r.2.1)) } (.ret r.1))
    | _ => none
  | .bool x =>
    match S.sv x with
    | some .empty => some (say S (.bool false))
    | some (.holds _ _) => some (say S (.bool true))
    | _ => none
  | .isNull x =>
    match S.sv x with
    | some .empty => some (say S (.bool true))
    | some (.holds _ _) => some (say S (.bool false))
    | _ => none
  | .notNull x =>
    match S.sv x with
    | some .empty => some (say S (.bool false))
    | some (.holds _ _) => some (say S (.bool true))
    | _ => none
  | .type x =>
    match S.sv x with
    | some .empty => some (say S (.type none))
    | some (.holds ty _) => some (say S (.type (some ty)))
    | _ => none
  | .target x t =>
    match S.sv x with
    | some .empty => some (say S (.target none))
    | some (.holds ty st) => some (say S (.target (if t = ty then some st else none)))
    | _ => none
  | .set x t v =>
    match S.sv x with
    | some .empty => some S
    | some (.holds ty _) => some (if t = ty then { S with sv := upd S.sv x (some (.holds ty v)) } else S)
    | _ => none

def specExec (P : Types) (S : Spec) : List Op → Option Spec
  | [] => some S
  | a :: as =>
    match specRun P S a with
    | none => none
    | some S => if S.dead then some S else specExec P S as

end Verif.TaskTarget
