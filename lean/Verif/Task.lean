/-!
# `task_` (include/stlab/concurrency/task.hpp:37-282)

A type-erased, move-only function object with a small object optimisation. Function objects ("instances")
are numbered as they are created; each one holds a callable (a number, `none` once moved from). Which callable
types are small is a parameter of each construction. Undefined behaviour (use of a destroyed or null object)
is the outcome `none`.

Arguments and results, `target`/`target_type` and exceptions are in Verif/TaskTarget.lean.
-/

namespace Verif.Task

/-- Pointwise update. -/
def upd {α : Type} (f : Nat → α) (k : Nat) (v : α) : Nat → α := fun i => if i = k then v else f i

/-- Which vtable `_vtable_ptr` points to: the empty one (lines 146-169), `model<F, true>` (lines 67-103) or
`model<F, false>` (lines 105-144). -/
inductive VT where
  | empty
  | small
  | large
  deriving DecidableEq, Repr

/-- What is stored in `_model`. -/
inductive Slot where
  /-- no object: never constructed, or destroyed -/
  | raw
  /-- a null `std::unique_ptr` -/
  | null
  /-- the instance itself (small) or a `std::unique_ptr` to it (large) -/
  | inst (i : Nat)
  deriving DecidableEq, Repr

/-- A `task_` object. -/
structure Obj where
  vt : VT
  slot : Slot
  deriving DecidableEq, Repr

/-- What an observer sees. -/
inductive Event where
  /-- callable `c` is called -/
  | called (c : Nat)
  /-- `std::bad_function_call` (or `std::terminate`, for a `noexcept` task) -/
  | badCall
  /-- a moved-from function object is called -/
  | calledMoved
  deriving DecidableEq, Repr

structure World where
  /-- the task objects; `none`: not constructed. Number 0 is for temporaries. -/
  obj : Nat → Option Obj := fun _ => none
  /-- the callables held by the instances -/
  val : Nat → Option Nat := fun _ => none
  /-- how many times each instance has been destroyed -/
  dtors : Nat → Nat := fun _ => 0
  /-- number of instances created -/
  next : Nat := 0
  trace : List Event := []

/-- The instance exists and has not been destroyed. -/
def alive (W : World) (i : Nat) : Bool := decide (i < W.next ∧ W.dtors i = 0)

/-- `_vtable_ptr->dtor(&_model)` (lines 73, 111, 147); leaves raw storage. -/
def dtorModel (W : World) (x : Nat) (o : Obj) : Option World :=
  match o.vt, o.slot with
  | .empty, _ => some { W with obj := upd W.obj x (some ⟨o.vt, .raw⟩) }
  | .small, .inst i => some { W with dtors := upd W.dtors i (W.dtors i + 1),
                                     obj := upd W.obj x (some ⟨o.vt, .raw⟩) }
  | .large, .inst i => some { W with dtors := upd W.dtors i (W.dtors i + 1),
                                     obj := upd W.obj x (some ⟨o.vt, .raw⟩) }
  | .large, .null => some { W with obj := upd W.obj x (some ⟨o.vt, .raw⟩) }
  | _, _ => none

/-- `_vtable_ptr->move_ctor(&y._model, &x._model)` (lines 74-76, 112-114, 148), `x`'s vtable being set to
`y`'s before. -/
def moveModel (W : World) (x y : Nat) (o : Obj) : Option World :=
  match o.vt, o.slot with
  | .empty, _ => some { W with obj := upd W.obj x (some ⟨.empty, .raw⟩) }
  | .small, .inst i =>
    -- new (p) model(std::move(self->_f)): a new instance, the old one is moved from
    if alive W i then
      some { W with obj := upd W.obj x (some ⟨.small, .inst W.next⟩),
                    val := upd (upd W.val W.next (W.val i)) i none, next := W.next + 1 }
    else none
  | .large, .inst i =>
    some { W with obj := upd (upd W.obj y (some ⟨.large, .null⟩)) x (some ⟨.large, .inst i⟩) }
  | .large, .null => some { W with obj := upd W.obj x (some ⟨.large, .null⟩) }
  | _, _ => none

/-- Default constructor (line 198). -/
def ctor (W : World) (x : Nat) : Option World :=
  match W.obj x with
  | none => some { W with obj := upd W.obj x (some ⟨.empty, .raw⟩) }
  | some _ => none

/-- `task_(F&& f)` (lines 206-220) with a callable `c`, or an empty one (null function pointer). -/
def ctorF (W : World) (x : Nat) (c : Option Nat) (large : Bool) : Option World :=
  match W.obj x, c with
  | none, none => some { W with obj := upd W.obj x (some ⟨.empty, .raw⟩) }
  | none, some c =>
    some { W with obj := upd W.obj x (some ⟨if large then .large else .small, .inst W.next⟩),
                  val := upd W.val W.next (some c), next := W.next + 1 }
  | some _, _ => none

/-- Move constructor (lines 202-204): `x` from `y`. -/
def moveCtor (W : World) (x y : Nat) : Option World :=
  match W.obj x, W.obj y with
  | none, some o => moveModel W x y o
  | _, _ => none

/-- Move assignment (lines 226-232): `x = std::move(y)`. -/
def assign (W : World) (x y : Nat) : Option World :=
  match W.obj x with
  | none => none
  | some o =>
    match dtorModel W x o with
    | none => none
    | some W1 =>
      match W1.obj y with
      | none => none
      | some o' => moveModel W1 x y o'

/-- Destructor (line 222). -/
def dtor (W : World) (x : Nat) : Option World :=
  match W.obj x with
  | none => none
  | some o =>
    match dtorModel W x o with
    | none => none
    | some W1 => some { W1 with obj := upd W1.obj x none }

/-- `x = f` (lines 236-241): through a temporary. -/
def assignF (W : World) (x : Nat) (c : Option Nat) (large : Bool) : Option World := do
  let W ← ctorF W 0 c large
  let W ← assign W x 0
  dtor W 0

/-- `x = nullptr` (line 234): through a temporary. -/
def reset (W : World) (x : Nat) : Option World := do
  let W ← ctor W 0
  let W ← assign W x 0
  dtor W 0

/-- `swap` (lines 243, 269): `std::swap`. -/
def swap (W : World) (x y : Nat) : Option World := do
  let W ← moveCtor W 0 x
  let W ← assign W x y
  let W ← assign W y 0
  dtor W 0

/-- `operator()` (lines 264-267; the models' `invoke` in lines 86, 123, 150). -/
def call (W : World) (x : Nat) : Option World :=
  match W.obj x with
  | none => none
  | some o =>
    match o.vt, o.slot with
    | .empty, _ => some { W with trace := W.trace ++ [.badCall] }
    | _, .inst i =>
      if alive W i then
        some { W with trace := W.trace ++ [match W.val i with | some c => .called c | none => .calledMoved] }
      else none
    | _, _ => none

/-- `operator bool` (line 245; `const_pointer` in lines 92, 131, 163). -/
def toBool (W : World) (x : Nat) : Option Bool :=
  match W.obj x with
  | none => none
  | some o =>
    match o.vt, o.slot with
    | .empty, _ => some false
    | _, .inst _ => some true
    | .large, .null => some false
    | _, _ => none

/-- Operations of a program on its tasks `1, 2, ...`. -/
inductive Op where
  | ctor (x : Nat)
  | ctorF (x : Nat) (c : Option Nat) (large : Bool)
  | moveCtor (x y : Nat)
  | assign (x y : Nat)
  | assignF (x : Nat) (c : Option Nat) (large : Bool)
  | reset (x : Nat)
  | swap (x y : Nat)
  | dtor (x : Nat)
  | call (x : Nat)
  deriving DecidableEq, Repr

def run (W : World) : Op → Option World
  | .ctor x => ctor W x
  | .ctorF x c l => ctorF W x c l
  | .moveCtor x y => moveCtor W x y
  | .assign x y => assign W x y
  | .assignF x c l => assignF W x c l
  | .reset x => reset W x
  | .swap x y => swap W x y
  | .dtor x => dtor W x
  | .call x => call W x

def exec (W : World) : List Op → Option World
  | [] => some W
  | a :: as => match run W a with
    | none => none
    | some W => exec W as

/-! ## What a task should be -/

/-- The content of a task as its user sees it. -/
inductive SV where
  | empty
  | holds (c : Nat)
  /-- moved from: must not be called -/
  | moved
  deriving DecidableEq, Repr

/-- The task variables of a program. -/
structure Spec where
  sv : Nat → Option SV := fun _ => none
  trace : List Event := []

/-- Content of a task given a callable. -/
def given : Option Nat → SV
  | none => .empty
  | some c => .holds c

/-- Content of a task that has been moved from. -/
def from_ : SV → SV
  | .empty => .empty
  | _ => .moved

/-- What the operations mean, and which are allowed: variables must (not) exist, a task is not move-assigned to
or swapped with itself, and a moved-from task is not called. -/
def specRun (S : Spec) : Op → Option Spec
  | .ctor x => if 0 < x ∧ S.sv x = none then some { S with sv := upd S.sv x (some .empty) } else none
  | .ctorF x c _ => if 0 < x ∧ S.sv x = none then some { S with sv := upd S.sv x (some (given c)) } else none
  | .moveCtor x y =>
    match S.sv y with
    | some v => if 0 < x ∧ S.sv x = none then
        some { S with sv := upd (upd S.sv y (some (from_ v))) x (some v) } else none
    | none => none
  | .assign x y =>
    match S.sv x, S.sv y with
    | some _, some v => if x ≠ y then some { S with sv := upd (upd S.sv y (some (from_ v))) x (some v) } else none
    | _, _ => none
  | .assignF x c _ => if S.sv x ≠ none then some { S with sv := upd S.sv x (some (given c)) } else none
  | .reset x => if S.sv x ≠ none then some { S with sv := upd S.sv x (some .empty) } else none
  | .swap x y =>
    match S.sv x, S.sv y with
    | some v, some w => if x ≠ y then some { S with sv := upd (upd S.sv x (some w)) y (some v) } else none
    | _, _ => none
  | .dtor x => if S.sv x ≠ none then some { S with sv := upd S.sv x none } else none
  | .call x =>
    match S.sv x with
    | some .empty => some { S with trace := S.trace ++ [.badCall] }
    | some (.holds c) => some { S with trace := S.trace ++ [.called c] }
    | _ => none

def specExec (S : Spec) : List Op → Option Spec
  | [] => some S
  | a :: as => match specRun S a with
    | none => none
    | some S => specExec S as

end Verif.Task
