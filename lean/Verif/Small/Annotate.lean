/-!
# Annotations of a process: `operator&` (include/stlab/concurrency/channel.hpp, include/stlab/concurrency/executor_base.hpp)

The operands are temporary objects. `amp` is the overload resolution together with the function that is chosen; `none` if
the expression does not compile or its value is nothing that `receiver::operator|` accepts.
-/

namespace Verif.Annotate

/-- What may stand in such an expression. -/
inductive Val where
  /-- a function -/
  | fn (f : Nat)
  /-- `executor` (executor_base.hpp lines 63-65) -/
  | ex (e : Nat)
  /-- `buffer_size` (channel.hpp lines 1341-1344) -/
  | bs (n : Nat)
  /-- `annotations` (lines 1350-1357) -/
  | ann (e : Option Nat) (n : Option Nat)
  /-- `executor_task_pair` (executor_base.hpp lines 67-71) -/
  | etp (e : Nat) (f : Nat)
  /-- `annotated_process` (lines 1359-1376) -/
  | ap (f : Nat) (e : Option Nat) (n : Option Nat)
  deriving DecidableEq, Repr

/-- `operator&` -/
def amp : Val → Val → Option Val
  -- executor_base.hpp lines 73-81
  | .ex e, .fn f => some (.etp e f)
  | .fn f, .ex e => some (.etp e f)
  -- channel.hpp lines 1378-1401
  | .bs n, .ex e => some (.ann (some e) (some n))
  | .ex e, .bs n => some (.ann (some e) (some n))
  -- lines 1403-1411
  | .bs n, .fn f => some (.ap f none (some n))
  | .fn f, .bs n => some (.ap f none (some n))
  -- lines 1413-1421: the constructor in lines 1374-1375 gives a `buffer_size` for the `std::size_t` of `annotations`, for
  -- which there is no conversion
  | .etp _ _, .bs _ => none
  | .bs _, .etp _ _ => none
  -- lines 1423-1431
  | .ann e n, .fn f => some (.ap f e n)
  | .fn f, .ann e n => some (.ap f e n)
  -- lines 1433-1438: the executor is assigned to the object that was moved from, and not to `result`
  | .ap f e n, .ex _ => some (.ap f e n)
  -- lines 1440-1445: the same
  | .ap f e n, .bs _ => some (.ap f e n)
  -- nothing that can be used; for example an `executor_task_pair<annotated_process<F>>`, where `annotated_process<F>` is
  -- not a function
  | _, _ => none

/-- Expressions. -/
inductive Expr where
  | val (v : Val)
  | amp (a b : Expr)

def Expr.eval : Expr → Option Val
  | .val v => some v
  | .amp a b => do
    let x ← a.eval
    let y ← b.eval
    Annotate.amp x y

/-- All ways to combine three operands. -/
def combos (a b c : Expr) : List Expr :=
  [(a.amp b).amp c, a.amp (b.amp c), (a.amp c).amp b, a.amp (c.amp b), (b.amp a).amp c, b.amp (a.amp c), (b.amp c).amp a,
   b.amp (c.amp a), (c.amp a).amp b, c.amp (a.amp b), (c.amp b).amp a, c.amp (b.amp a)]

/-- The executor and the buffer size that the process gets (lines 1509-1543): those of the annotation, else the
executor of the upstream process and size 1. -/
def applied (up : Nat) : Val → Option (Nat × Nat × Nat)
  | .fn f => some (f, up, 1)
  | .etp e f => some (f, e, 1)
  | .ap f e n => some (f, e.getD up, n.getD 1)
  | _ => none

/-- C48 fails: in `(f & buffer_size{n}) & executor{e}` the executor is lost. -/
theorem c48_counterexample (f e n : Nat) :
    (((Expr.val (.fn f)).amp (.val (.bs n))).amp (.val (.ex e))).eval = some (.ap f none (some n)) ∧
      ((Expr.val (.fn f)).amp ((Expr.val (.bs n)).amp (.val (.ex e)))).eval = some (.ap f (some e) (some n)) := ⟨rfl, rfl⟩

/-- ... so that the process runs on another executor. -/
theorem c48_counterexample_executor {f e n up : Nat} (h : up ≠ e) :
    ((((Expr.val (.fn f)).amp (.val (.bs n))).amp (.val (.ex e))).eval.bind (applied up)) ≠ some (f, e, n) := by
  simp [Expr.eval, amp, applied, h]

/-- A second buffer size is ignored, too. -/
theorem c48_counterexample_size (f n m : Nat) :
    (((Expr.val (.fn f)).amp (.val (.bs n))).amp (.val (.bs m))).eval = some (.ap f none (some n)) := rfl

/-- In whatever order the three are combined: if it gives anything, then a process with the function and the buffer size,
and with the executor or none. Not proved (false): that it is always with the executor. -/
theorem c48_any_order_partial (f e n : Nat) : ∀ x ∈ combos (.val (.fn f)) (.val (.ex e)) (.val (.bs n)),
    x.eval = none ∨ x.eval = some (.ap f (some e) (some n)) ∨ x.eval = some (.ap f none (some n)) := by
  intro x hx
  simp only [combos, List.mem_cons, List.not_mem_nil, or_false] at hx
  rcases hx with rfl | rfl | rfl | rfl | rfl | rfl | rfl | rfl | rfl | rfl | rfl | rfl <;> simp [Expr.eval, amp]

/-- The orders that combine the executor and the buffer size first give the same, and the right, process. -/
theorem c48_annotations_first (f e n up : Nat) :
    ∀ x ∈ [(Expr.val (.fn f)).amp ((Expr.val (.ex e)).amp (.val (.bs n))), (Expr.val (.fn f)).amp ((Expr.val (.bs n)).amp (.val (.ex e))),
      ((Expr.val (.ex e)).amp (.val (.bs n))).amp (.val (.fn f)), ((Expr.val (.bs n)).amp (.val (.ex e))).amp (.val (.fn f))],
      x.eval.bind (applied up) = some (f, e, n) := by
  intro x hx
  simp only [List.mem_cons, List.not_mem_nil, or_false] at hx
  rcases hx with rfl | rfl | rfl | rfl <;> rfl

/-- With one annotation, the order does not matter, and the other value is the default. -/
theorem c48_one_annotation (f e n up : Nat) :
    ((Expr.val (.fn f)).amp (.val (.ex e))).eval.bind (applied up) = some (f, e, 1) ∧
    ((Expr.val (.ex e)).amp (.val (.fn f))).eval.bind (applied up) = some (f, e, 1) ∧
    ((Expr.val (.fn f)).amp (.val (.bs n))).eval.bind (applied up) = some (f, up, n) ∧
    ((Expr.val (.bs n)).amp (.val (.fn f))).eval.bind (applied up) = some (f, up, n) := ⟨rfl, rfl, rfl, rfl⟩

end Verif.Annotate
