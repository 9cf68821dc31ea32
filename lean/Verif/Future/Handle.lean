/-!
# Futures as handles (include/stlab/concurrency/future.hpp:57-117, 402-448, 532-560, 690-973)

What one thread sees of futures that it copies, moves, swaps, resets, compares, and reads in the different ways there
are: `get_try` and `get_ready`, of a future that is kept (`const&`) or given up (`&&`), and functions attached with
`then` to futures that are ready. A future is a `std::shared_ptr` to a shared state; reading a future that is given
up moves the result out of the shared state if no other future refers to it (`unique_usage`, lines 220-223).

All variables of a program exist from the beginning, as default constructed futures: to construct a future is to
assign to such a variable, to destroy one is to reset it. Futures held by functions waiting to be called are
variables, too. Threads are in C55 and C73. Undefined behaviour is the outcome `none`.
-/

namespace Verif.Handle

/-- The type `T` of a `future<T>`. -/
inductive Kind where
  /-- a type that can be copied -/
  | copyable
  /-- a type that can only be moved (lines 453-560, 861-973) -/
  | moveOnly
  | void
  /-- `std::monostate` itself -/
  | mono
  deriving DecidableEq, Repr

/-- An object of type `void_to_monostate_t<T>` (lines 70-76). -/
inductive Val where
  | val (n : Nat)
  /-- what is left of a value that has been moved -/
  | moved
  deriving DecidableEq, Repr

/-- The members of `shared_base` that are read (lines 329-334, 458-463). -/
structure Shared where
  /-- `_result` -/
  result : Option Val := none
  /-- `_exception` -/
  exc : Option Nat := none
  /-- `_ready` -/
  ready : Bool := false
  deriving DecidableEq, Repr

/-- What a program sees of an operation. -/
inductive Out where
  | bool (b : Bool)
  /-- a value of type `T` -/
  | value (v : Val)
  /-- an optional of it -/
  | opt (v : Option Val)
  /-- nothing: the expression has type `void` -/
  | unit
  /-- a `std::monostate` -/
  | mono
  /-- an exception is thrown -/
  | threw (e : Nat)
  /-- `exception()` -/
  | exc (e : Option Nat)
  /-- the arguments the function attached with `then` is called with -/
  | args (l : List Val)
  deriving DecidableEq, Repr

structure World where
  /-- the futures: `_p` -/
  h : List (Option Nat)
  /-- the shared states -/
  sh : List Shared := []
  out : List Out := []

def emit (W : World) (o : Out) : World := { W with out := W.out ++ [o] }

/-- `use_count()` of the shared pointer (lines 220-223). -/
def useCount (W : World) (p : Nat) : Nat := W.h.count (some p)

/-- `unique_usage` (lines 220-223). -/
def unique (W : World) (p : Nat) : Bool := useCount W p == 1

/-- A new shared state, in variable `x`. -/
def make (W : World) (x : Nat) (s : Shared) : Option World :=
  if x < W.h.length then some { W with h := W.h.set x (some W.sh.length), sh := W.sh ++ [s] } else none

/-- `x = y` (line 716). -/
def copy (W : World) (x y : Nat) : Option World :=
  match W.h[y]? with
  | none => none
  | some p => if x < W.h.length then some { W with h := W.h.set x p } else none

/-- `x = std::move(y)` (lines 717, 887): the source is empty afterwards, unless it is `x` itself. -/
def move (W : World) (x y : Nat) : Option World :=
  match W.h[y]? with
  | none => none
  | some p => if x < W.h.length then some { W with h := (W.h.set y none).set x p } else none

/-- `swap` (lines 719-721, 889-891). -/
def swap (W : World) (x y : Nat) : Option World :=
  match W.h[x]?, W.h[y]? with
  | some p, some q => some { W with h := (W.h.set x q).set y p }
  | _, _ => none

/-- `reset` (lines 835, 952). -/
def reset (W : World) (x : Nat) : Option World :=
  if x < W.h.length then some { W with h := W.h.set x none } else none

/-- The shared state of variable `x`; `none` if there is none (the null pointer is dereferenced). -/
def deref (W : World) (x : Nat) : Option (Nat × Shared) :=
  match W.h[x]? with
  | some (some p) => (W.sh[p]?).map (p, ·)
  | _ => none

/-- The result of a function called by a future, and the shared state afterwards. `none`: undefined behaviour. -/
abbrev Got (α : Type) := Option ((Except Nat α) × Shared)

/-- `shared_base::get_try` (lines 422-433; move-only line 546 through `get_try_r`). -/
def getTry (k : Kind) (s : Shared) : Got (Option Val) :=
  if s.ready then
    match s.exc with
    | some e => some (.error e, s)
    | none =>
      if k = .moveOnly then some (.ok s.result, { s with result := s.result.map fun _ => .moved })
      else some (.ok s.result, s)
  else some (.ok none, s)

/-- `shared_base::get_try_r` (lines 435-448; move-only 548-558). The optional that is moved from keeps having a
value. -/
def getTryR (k : Kind) (uniq : Bool) (s : Shared) : Got (Option Val) :=
  if k = .moveOnly ∨ uniq = true then
    if s.ready then
      match s.exc with
      | some e => some (.error e, s)
      | none => some (.ok s.result, { s with result := s.result.map fun _ => .moved })
    else some (.ok none, s)
  else getTry k s

/-- `shared_base::get_ready` (lines 406-411). -/
def getReady (s : Shared) : Got Val :=
  if s.ready then
    match s.exc with
    | some e => some (.error e, s)
    | none => s.result.map fun v => (.ok v, s)
  else none

/-- `shared_base::get_ready_r` (lines 413-420; move-only 539-544). -/
def getReadyR (k : Kind) (uniq : Bool) (s : Shared) : Got Val :=
  if k = .moveOnly ∨ uniq = true then
    if s.ready then
      match s.exc with
      | some e => some (.error e, s)
      | none => s.result.map fun v => (.ok v, { s with result := some .moved })
    else none
  else getReady s

/-- `optional_monostate_to_bool` (lines 81-88). -/
def optOut (k : Kind) (v : Option Val) : Out :=
  if k = .void ∨ k = .mono then .bool v.isSome else .opt v

/-- `monostate_to_void` (lines 90-97). `ref`: the argument is an lvalue; then `T` is a reference type, which is not
`std::monostate`. -/
def readyOut (k : Kind) (ref : Bool) (v : Val) : Out :=
  if k = .void ∨ k = .mono then (if ref then .mono else .unit) else .value v

/-- `invoke_remove_monostate_arguments` (lines 99-117) for the result of a future: what the function is called
with. The argument is the result of `invoke_void_to_monostate_result`, an rvalue (lines 730-732). -/
def args (k : Kind) (v : Val) : List Val := if k = .void ∨ k = .mono then [] else [v]

/-- Operations of a program. -/
inductive Op where
  /-- `package`, the future being kept in `x` -/
  | make (x : Nat)
  /-- `make_ready_future` (ready_future.hpp:27-40) -/
  | makeReady (x n : Nat)
  /-- `make_exceptional_future` (ready_future.hpp:42-70) with an exception, or with a null `std::exception_ptr` -/
  | makeExc (x : Nat) (e : Option Nat)
  /-- the producer of shared state `p` resolves it -/
  | resolve (p n : Nat)
  | fail (p e : Nat)
  | copy (x y : Nat)
  | move (x y : Nat)
  | swap (x y : Nat)
  | reset (x : Nat)
  | valid (x : Nat)
  | eq (x y : Nat)
  | isReady (x : Nat)
  /-- `x.get_try()` -/
  | getTry (x : Nat)
  /-- `std::move(x).get_try()` -/
  | getTryR (x : Nat)
  /-- `x.get_ready()` -/
  | getReady (x : Nat)
  /-- `std::move(x).get_ready()` -/
  | getReadyR (x : Nat)
  /-- `x.exception()` -/
  | exception (x : Nat)
  /-- `x.then(f)` of a ready future with the immediate executor (lines 728-734) -/
  | then_ (x : Nat)
  /-- `std::move(x).then(f)` (lines 757-763; move-only 898-902, which reads with `*get_try()`: the same for a
  future that is ready) -/
  | thenR (x : Nat)
  deriving DecidableEq, Repr

/-- Go on with the shared state `p` changed, and show what has been read. -/
def show_ {α : Type} (W : World) (p : Nat) (f : α → Out) (g : Got α) : Option World :=
  match g with
  | none => none
  | some (.error e, s) => some (emit { W with sh := W.sh.set p s } (.threw e))
  | some (.ok a, s) => some (emit { W with sh := W.sh.set p s } (f a))

def run (k : Kind) (W : World) : Op → Option World
  | .make x => make W x {}
  | .makeReady x n => make W x { result := some (.val n), ready := true }
  | .makeExc x e => make W x { exc := e, ready := true }
  | .resolve p n => match W.sh[p]? with
    | none => none
    | some s => some { W with sh := W.sh.set p { s with result := some (.val n), ready := true } }
  | .fail p e => match W.sh[p]? with
    | none => none
    | some s => some { W with sh := W.sh.set p { s with exc := some e, ready := true } }
  | .copy x y => if k = .moveOnly then none else copy W x y
  | .move x y => move W x y
  | .swap x y => swap W x y
  | .reset x => reset W x
  | .valid x => match W.h[x]? with
    | none => none
    | some p => some (emit W (.bool p.isSome))
  | .eq x y => match W.h[x]?, W.h[y]? with
    | some p, some q => some (emit W (.bool (p == q)))
    | _, _ => none
  | .isReady x => match W.h[x]? with
    | none => none
    | some none => some (emit W (.bool false))
    | some (some p) => (W.sh[p]?).map fun s => emit W (.bool s.ready)
  | .getTry x => match deref W x with
    | none => none
    | some (p, s) => show_ W p (optOut k) (getTry k s)
  | .getTryR x => match deref W x with
    | none => none
    | some (p, s) => show_ W p (optOut k) (getTryR k (unique W p) s)
  | .getReady x => match deref W x with
    | none => none
    | some (p, s) => if k = .moveOnly then none else show_ W p (readyOut k true) (getReady s)
  | .getReadyR x => match deref W x with
    | none => none
    | some (p, s) => show_ W p (readyOut k false) (getReadyR k (unique W p) s)
  | .exception x => match deref W x with
    | none => none
    | some (_, s) => if s.ready then some (emit W (.exc s.exc)) else none
  | .then_ x => match deref W x with
    | none => none
    -- the function holds a copy of the future, which it gives up: its use count is one more
    | some (p, s) =>
      if k = .moveOnly then none else show_ W p (fun v => .args (args k v)) (getReadyR k (useCount W p + 1 == 1) s)
  | .thenR x => match deref W x with
    | none => none
    -- the function holds the future; `x` is empty
    | some (p, s) => match show_ W p (fun v => .args (args k v)) (getReadyR k (unique W p) s) with
      | none => none
      | some W => some { W with h := W.h.set x none }

def exec (k : Kind) (W : World) : List Op → Option World
  | [] => some W
  | a :: as => match run k W a with
    | none => none
    | some W => exec k W as

/-! ## What futures should be -/

/-- What a future refers to, as its user sees it. -/
inductive H where
  | empty
  | ref (p : Nat)
  /-- its value has been read with `std::move`: not to be read again -/
  | spent (p : Nat)
  deriving DecidableEq, Repr

def H.ptr : H → Option Nat
  | .empty => none
  | .ref p => some p
  | .spent p => some p

/-- An outcome. -/
inductive Oc where
  | pending
  | val (n : Nat)
  | exc (e : Nat)
  deriving DecidableEq, Repr

structure Spec where
  h : List H
  oc : List Oc := []
  out : List Out := []

def say (S : Spec) (o : Out) : Spec := { S with out := S.out ++ [o] }

/-- What `get_try` should give. -/
def tryOut (k : Kind) : Oc → Out
  | .pending => if k = .void then .bool false else .opt none
  | .val n => if k = .void then .bool true else .opt (some (.val n))
  | .exc e => .threw e

/-- What `get_ready` should give for a value. -/
def valueOut (k : Kind) (n : Nat) : Out := if k = .void then .unit else .value (.val n)

/-- The arguments of a function attached with `then`. -/
def valueArgs (k : Kind) (n : Nat) : List Val := if k = .void then [] else [.val n]

def specMake (S : Spec) (x : Nat) (o : Oc) : Option Spec :=
  if x < S.h.length then some { S with h := S.h.set x (.ref S.oc.length), oc := S.oc ++ [o] } else none

/-- The outcome of the future `x`, which has not been spent. -/
def specRef (S : Spec) (x : Nat) : Option (Nat × Oc) :=
  match S.h[x]? with
  | some (.ref p) => (S.oc[p]?).map (p, ·)
  | _ => none

/-- Give up `x` if a value has been read. -/
def spend (S : Spec) (x p : Nat) : Oc → Spec
  | .val _ => { S with h := S.h.set x (.spent p) }
  | _ => S

/-- What the operations mean, and which are allowed: an empty future is not read; one whose value has been read with
`std::move` is not read again; a shared state is resolved once, and not with a null exception; `get_ready` and `then` are for
futures that are ready (`then` may be used otherwise, but here it is not). The type of the result being one that cannot be
copied, there are no copies, no `get_ready` without `std::move`, and `get_try` gives up the future, too. For `void`, `get_ready`
without `std::move` is excluded. -/
def specRun (k : Kind) (S : Spec) : Op → Option Spec
  | .make x => specMake S x .pending
  | .makeReady x n => specMake S x (.val n)
  | .makeExc x (some e) => specMake S x (.exc e)
  | .makeExc _ none => none
  | .resolve p n => if S.oc[p]? = some .pending then some { S with oc := S.oc.set p (.val n) } else none
  | .fail p e => if S.oc[p]? = some .pending then some { S with oc := S.oc.set p (.exc e) } else none
  | .copy x y =>
    match S.h[y]? with
    | some v => if k ≠ .moveOnly ∧ x < S.h.length then some { S with h := S.h.set x v } else none
    | none => none
  | .move x y =>
    match S.h[y]? with
    | some v => if x < S.h.length then some { S with h := if x = y then S.h else (S.h.set x v).set y .empty } else none
    | none => none
  | .swap x y =>
    match S.h[x]?, S.h[y]? with
    | some v, some w => some { S with h := (S.h.set x w).set y v }
    | _, _ => none
  | .reset x => if x < S.h.length then some { S with h := S.h.set x .empty } else none
  | .valid x => (S.h[x]?).map fun v => say S (.bool (v ≠ .empty))
  | .eq x y =>
    match S.h[x]?, S.h[y]? with
    | some v, some w => some (say S (.bool (v.ptr = w.ptr)))
    | _, _ => none
  | .isReady x =>
    match S.h[x]? with
    | none => none
    | some v =>
      match v.ptr with
      | none => some (say S (.bool false))
      | some p => (S.oc[p]?).map fun o => say S (.bool (o ≠ .pending))
  | .getTry x => (specRef S x).map fun (p, o) => say (if k = .moveOnly then spend S x p o else S) (tryOut k o)
  | .getTryR x => (specRef S x).map fun (p, o) => say (spend S x p o) (tryOut k o)
  | .getReady x =>
    if k = .moveOnly ∨ k = .void then none else
    match specRef S x with
    | some (_, .val n) => some (say S (valueOut k n))
    | some (_, .exc e) => some (say S (.threw e))
    | _ => none
  | .getReadyR x =>
    match specRef S x with
    | some (p, .val n) => some (say (spend S x p (.val n)) (valueOut k n))
    | some (_, .exc e) => some (say S (.threw e))
    | _ => none
  | .exception x =>
    match S.h[x]? with
    | none => none
    | some v =>
      match v.ptr with
      | none => none
      | some p =>
        match S.oc[p]? with
        | some (.val _) => some (say S (.exc none))
        | some (.exc e) => some (say S (.exc (some e)))
        | _ => none
  | .then_ x =>
    if k = .moveOnly then none else
    match specRef S x with
    | some (_, .val n) => some (say S (.args (valueArgs k n)))
    | some (_, .exc e) => some (say S (.threw e))
    | _ => none
  | .thenR x =>
    match specRef S x with
    | some (_, .val n) => some (say { S with h := S.h.set x .empty } (.args (valueArgs k n)))
    | some (_, .exc e) => some (say { S with h := S.h.set x .empty } (.threw e))
    | _ => none

def specExec (k : Kind) (S : Spec) : List Op → Option Spec
  | [] => some S
  | a :: as => match specRun k S a with
    | none => none
    | some S => specExec k S as

end Verif.Handle
