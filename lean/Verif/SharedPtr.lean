/-!
# `SharedPtr` and `RefCount` (C47)

Models `riegeli/base/ref_count.h` (lines 31-102) and the operations of
`riegeli/base/shared_ptr.h` (lines 60-433) that create, copy, move, reset and
query a pointer, at the granularity of single accesses to memory shared by
threads: each atomic operation on the reference count, the assignment of the
object and the deletion of the object are separate steps, and a schedule picks
any step of any thread next.

Simplifications, for the whole file:
* Memory is sequentially consistent; the memory orders (`relaxed`, `acquire`,
  `release`, and the fence in ref_count.h line 75) are not modelled.
* The count is a natural number; `size_t` overflow (2^64 owners) is not modelled.
* `IntrusiveSharedPtr` (intrusive_shared_ptr.h lines 95-361) has the same code
  over a `T` that wraps a `RefCount`; it is covered through that reading.
* Allocation layout (`Control`, offsets, alignment), upcasting, and
  `Release()`/`DeleteReleased()` are not modelled.  The type is `IsAssignable`
  (shared_ptr.h lines 382-388), so that `Reset(value)` may reuse the object.
-/

namespace Riegeli.Shp

/-- An object managed by `SharedPtr`, with the `RefCount` allocated before it
(shared_ptr.h lines 309-331; ref_count.h line 101).  `deleted` counts the calls
of `Delete` on it (lines 333-353); it is ghost state. -/
structure Obj (α : Type) where
  count : Nat
  value : α
  deleted : Nat
deriving DecidableEq

/-- What a thread inside a `SharedPtr` operation does next.

* `assign w p`: `w.ptr_.reset(p)`, the reference of `p` being already taken
  (shared_ptr.h lines 122, 134, 398; the move assignment at line 128).
* `store w x`: `*ptr_ = std::move(value)` after `IsUnique()` returned `true`
  (lines 392-395).
* `unrefLoad o`, `unrefSub o`: the two atomic operations of `RefCount::Unref()`
  (ref_count.h lines 64 and 66).
* `destroy o`: `Delete(ptr)` after `Unref()` returned `true`
  (shared_ptr.h line 285).
* `done`: the operation has returned. -/
inductive Task (α : Type) where
  | assign (w : Nat) (p : Option Nat)
  | store (w : Nat) (x : α)
  | unrefLoad (o : Nat)
  | unrefSub (o : Nat)
  | destroy (o : Nat)
  | done
deriving DecidableEq

/-- The memory: objects by address, `SharedPtr` variables (`ptr_` of each,
shared_ptr.h line 432), and the operations in progress, in any thread. -/
structure St (α : Type) where
  objs : List (Obj α)
  ptrs : List (Option Nat)
  tasks : List (Task α)
deriving DecidableEq

/-- What the scheduler does next: begin an operation on the variables named, or
let operation `i` in progress make one step.

* `declare`: `SharedPtr<T> w;` (line 75).
* `make w x`: `w = SharedPtr<T>(x)` (line 83, then the move assignment).
* `copy w v`: `w = v` (lines 121-124).
* `move w v`: `w = std::move(v)` (line 128).
* `clear w`: `w.Reset()` (line 134); also what the destructor of `w` does.
* `resetTo w x`: `w.Reset(x)` (line 144, `ResetImpl` lines 390-399). -/
inductive Act (α : Type) where
  | declare
  | make (w : Nat) (x : α)
  | copy (w v : Nat)
  | move (w v : Nat)
  | clear (w : Nat)
  | resetTo (w : Nat) (x : α)
  | run (i : Nat)
deriving DecidableEq

/-- The result of a step: a new state, an action the program may not take (an
undeclared variable, a variable which another thread is assigning, an operation
which has returned), or an access to an object already deleted. -/
inductive Out (α : Type) where
  | next (s : St α)
  | refused
  | useAfterFree
deriving DecidableEq

variable {α : Type}

/-- The operation assigns the variable `w` (the user must not use `w` in another
thread meanwhile: `SharedPtr` is not itself atomic). -/
def Task.onVar (w : Nat) : Task α → Bool
  | .assign w' _ => w' == w
  | .store w' _ => w' == w
  | _ => false

/-- `w` is declared and no operation in progress assigns it. -/
def St.free (s : St α) (w : Nat) : Bool :=
  decide (w < s.ptrs.length) && !s.tasks.any (Task.onVar w)

/-- `ref_count_.fetch_add(1)` (ref_count.h line 46): `none` if the object has
been deleted. -/
def fetchAdd (objs : List (Obj α)) (o : Nat) : Option (List (Obj α)) :=
  match objs[o]? with
  | none => none
  | some ob =>
    if ob.deleted = 0 then some (objs.set o { ob with count := ob.count + 1 })
    else none

/-- `ref_count_.load()` (ref_count.h line 87). -/
def load (objs : List (Obj α)) (o : Nat) : Option Nat :=
  match objs[o]? with
  | none => none
  | some ob => if ob.deleted = 0 then some ob.count else none

/-- `ref_count_.fetch_sub(1)` (ref_count.h line 66): the old count and the new
memory. -/
def fetchSub (objs : List (Obj α)) (o : Nat) : Option (Nat × List (Obj α)) :=
  match objs[o]? with
  | none => none
  | some ob =>
    if ob.deleted = 0 then
      some (ob.count, objs.set o { ob with count := ob.count - 1 })
    else none

/-- `*ptr_ = x` (shared_ptr.h line 394). -/
def storeValue (objs : List (Obj α)) (o : Nat) (x : α) : Option (List (Obj α)) :=
  match objs[o]? with
  | none => none
  | some ob => if ob.deleted = 0 then some (objs.set o { ob with value := x }) else none

/-- `Delete(ptr)` (shared_ptr.h lines 333-353); `none` is a double free. -/
def delete (objs : List (Obj α)) (o : Nat) : Option (List (Obj α)) :=
  match objs[o]? with
  | none => none
  | some ob =>
    if ob.deleted = 0 then some (objs.set o { ob with deleted := ob.deleted + 1 })
    else none

/-- `New(value)` (shared_ptr.h lines 309-331) at a fresh address, with the
reference count 1 (ref_count.h line 101), then the assignment to `w`. -/
def newInto (s : St α) (w : Nat) (x : α) : St α :=
  { s with objs := s.objs ++ [{ count := 1, value := x, deleted := 0 }],
           tasks := s.tasks ++ [.assign w (some s.objs.length)] }

/-- What `std::unique_ptr::reset()` does after replacing the pointer: calls
`Unrefer` (shared_ptr.h lines 283-287) on the old one unless it was `nullptr`. -/
def afterReset : Option Nat → Task α
  | none => .done
  | some o => .unrefLoad o

/-- One step of operation `i` in progress. -/
def runTask (s : St α) (i : Nat) : Out α :=
  match s.tasks[i]? with
  | none => .refused
  | some .done => .refused
  -- `std::unique_ptr::reset(p)`
  | some (.assign w p) =>
    match s.ptrs[w]? with
    | none => .refused
    | some old =>
      .next { s with ptrs := s.ptrs.set w p, tasks := s.tasks.set i (afterReset old) }
  | some (.store w x) =>
    match s.ptrs[w]? with
    | some (some o) =>
      match storeValue s.objs o x with
      | none => .useAfterFree
      | some objs => .next { s with objs := objs, tasks := s.tasks.set i .done }
    | _ => .refused
  -- `if (HasUniqueOwner()) return true;` (ref_count.h line 64)
  | some (.unrefLoad o) =>
    match load s.objs o with
    | none => .useAfterFree
    | some n =>
      .next { s with tasks := s.tasks.set i (if n = 1 then .destroy o else .unrefSub o) }
  -- `fetch_sub(1) == 1` (ref_count.h lines 65-78)
  | some (.unrefSub o) =>
    match fetchSub s.objs o with
    | none => .useAfterFree
    | some (n, objs) =>
      .next { s with
        objs := objs, tasks := s.tasks.set i (if n = 1 then .destroy o else .done) }
  | some (.destroy o) =>
    match delete s.objs o with
    | none => .useAfterFree
    | some objs => .next { s with objs := objs, tasks := s.tasks.set i .done }

/-- One action of the schedule. -/
def step (s : St α) : Act α → Out α
  | .declare => .next { s with ptrs := s.ptrs ++ [none] }
  | .make w x => if s.free w then .next (newInto s w x) else .refused
  -- `ptr_.reset(Ref(that.ptr_.get()))` (shared_ptr.h lines 122, 376-380): `Ref()`
  -- is this step, `reset()` the next of the task.
  | .copy w v =>
    if s.free w && s.free v then
      match s.ptrs[v]? with
      | none => .refused
      | some none => .next { s with tasks := s.tasks ++ [.assign w none] }
      | some (some o) =>
        match fetchAdd s.objs o with
        | none => .useAfterFree
        | some objs => .next { s with objs := objs, tasks := s.tasks ++ [.assign w (some o)] }
    else .refused
  -- `ptr_.reset(that.ptr_.release())` (shared_ptr.h line 128, defaulted).
  | .move w v =>
    if s.free w && s.free v then
      match s.ptrs[v]? with
      | none => .refused
      | some p => .next { s with ptrs := s.ptrs.set v none, tasks := s.tasks ++ [.assign w p] }
    else .refused
  | .clear w =>
    if s.free w then .next { s with tasks := s.tasks ++ [.assign w none] } else .refused
  -- `ResetImpl` (shared_ptr.h lines 390-399), `IsUnique()` (lines 164-166).
  | .resetTo w x =>
    if s.free w then
      match s.ptrs[w]? with
      | none => .refused
      | some none => .next (newInto s w x)
      | some (some o) =>
        match load s.objs o with
        | none => .useAfterFree
        | some n =>
          if n = 1 then .next { s with tasks := s.tasks ++ [.store w x] }
          else .next (newInto s w x)
    else .refused
  | .run i => runTask s i

/-- Executes a schedule. -/
def exec (s : St α) : List (Act α) → Out α
  | [] => .next s
  | a :: as =>
    match step s a with
    | .next s' => exec s' as
    | .refused => .refused
    | .useAfterFree => .useAfterFree

/-- No variables, no objects, no operations. -/
def St.init : St α := { objs := [], ptrs := [], tasks := [] }

/-- The value a variable points to, `none` for an empty `SharedPtr`
(`operator*`, shared_ptr.h lines 186-195). -/
def St.deref (s : St α) (w : Nat) : Option α :=
  match s.ptrs[w]? with
  | some (some o) => s.objs[o]?.map Obj.value
  | _ => none

/-- `IsUnique()` (shared_ptr.h lines 164-166). -/
def St.isUnique (s : St α) (w : Nat) : Bool :=
  match s.ptrs[w]? with
  | some (some o) => load s.objs o == some 1
  | _ => false

/-- `GetRefCount()` (shared_ptr.h lines 176-179). -/
def St.refCount (s : St α) (w : Nat) : Nat :=
  match s.ptrs[w]? with
  | some (some o) => (load s.objs o).getD 0
  | _ => 0

end Riegeli.Shp
