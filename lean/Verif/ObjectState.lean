/-!
# `Object` and `ObjectState` (C51)

Models `riegeli/base/object.h` and `riegeli/base/object.cc`: the state of every
reader and writer (open or closed, failed or not), kept in one machine word which
is either a constant or points to a heap-allocated `FailedStatus`.

Simplifications, for the whole file:
* Only failed statuses occur as arguments of `Fail()` and `SetStatus()` (their
  precondition, object.h lines 85, 96), so `σ` is a type of failed statuses.
* `AnnotateStatusImpl()` is a function of the variable (whose class determines it)
  and of the status.  `Done()` of a derived class is a list of calls of `Fail()`.
  `OnFail()` does not touch the part of the object defined in `Object`.
* `GetTypeId()` and `GetIf()` are not modelled.
-/

namespace Riegeli.Obj

variable {σ : Type}

/-- `status_ptr_` (object.h lines 107-114): `kOk`, `kClosedSuccessfully`, or the
address of a `FailedStatus`. -/
inductive Ptr where
  | ok
  | closedSuccessfully
  | failed (a : Nat)
deriving DecidableEq

/-- A `FailedStatus` (object.h lines 100-105); `deleted` counts the calls of `delete`
on it and is ghost state. -/
structure Cell (σ : Type) where
  closed : Bool
  status : σ
  deleted : Nat
deriving DecidableEq

/-- The heap, and the `Object` variables of the program; `none` is a variable
whose destructor has run (object.h lines 114, 304). -/
structure Mem (σ : Type) where
  heap : List (Cell σ)
  objs : List (Option Ptr)
deriving DecidableEq

/-- What `status()` returns (object.h lines 170-173). -/
inductive Seen (σ : Type) where
  | okStatus
  | objectClosed
  | failure (s : σ)
deriving DecidableEq

/-- What a member function returns. -/
inductive Ret (σ : Type) where
  | void
  | bool (b : Bool)
  | status (s : Seen σ)
deriving DecidableEq

/-- The member functions, on variables named by numbers (object.h lines 137-304). -/
inductive Op (σ : Type) where
  | newOpen
  | newClosed
  | newMoved (v : Nat)
  | moveAssign (w v : Nat)
  | destroy (w : Nat)
  | resetOpen (w : Nat)
  | resetClosed (w : Nat)
  | close (w : Nat) (done : List σ)
  | ok (w : Nat)
  | isOpen (w : Nat)
  | notFailed (w : Nat)
  | status (w : Nat)
  | fail (w : Nat) (s : σ)
  | failWithoutAnnotation (w : Nat) (s : σ)
  | statusOrAnnotate (w : Nat) (s : σ)
  | markNotFailed (w : Nat)
  | setStatus (w : Nat) (s : σ)
deriving DecidableEq

/-- The result of an operation: a new memory and the returned value, an operation
the program may not do (no such object, or a violated precondition), or an access
to a deleted `FailedStatus`. -/
inductive Out (σ : Type) where
  | next (m : Mem σ) (r : Ret σ)
  | refused
  | useAfterFree
deriving DecidableEq

/-- `reinterpret_cast<FailedStatus*>(status_ptr_)->...`, reading (object.h line 315, object.cc lines 47, 68). -/
def load (h : List (Cell σ)) (a : Nat) : Option (Cell σ) :=
  match h[a]? with
  | none => none
  | some c => if c.deleted = 0 then some c else none

/-- `ObjectState::DeleteStatus()` (object.cc lines 56-61); `none` is a double free. -/
def deleteStatus (h : List (Cell σ)) : Ptr → Option (List (Cell σ))
  | .ok => some h
  | .closedSuccessfully => some h
  | .failed a =>
    match load h a with
    | none => none
    | some c => some (h.set a { c with deleted := c.deleted + 1 })

/-- `ObjectState::ok()` (object.h line 310). -/
def stateOk (p : Ptr) : Bool := p == .ok

/-- `ObjectState::is_open()` (object.h lines 312-316). -/
def stateIsOpen (h : List (Cell σ)) : Ptr → Option Bool
  | .ok => some true
  | .closedSuccessfully => some false
  | .failed a =>
    match load h a with
    | none => none
    | some c => some (!c.closed)

/-- `ObjectState::not_failed()` (object.h lines 318-320). -/
def stateNotFailed (p : Ptr) : Bool := p == .ok || p == .closedSuccessfully

/-- `ObjectState::status()` (object.cc lines 63-69). -/
def stateStatus (h : List (Cell σ)) : Ptr → Option (Seen σ)
  | .ok => some .okStatus
  | .closedSuccessfully => some .objectClosed
  | .failed a =>
    match load h a with
    | none => none
    | some c => some (.failure c.status)

/-- `ObjectState::MarkClosed()` (object.cc lines 42-49): heap, pointer, result. -/
def stateMarkClosed (h : List (Cell σ)) (p : Ptr) : Option (List (Cell σ) × Ptr × Bool) :=
  match p with
  | .failed a =>
    match load h a with
    | none => none
    | some c => some (h.set a { c with closed := true }, p, false)
  | _ => some (h, .closedSuccessfully, true)

/-- `ObjectState::MarkNotFailed()` (object.cc lines 51-54). -/
def stateMarkNotFailed (h : List (Cell σ)) (p : Ptr) : Option (List (Cell σ) × Ptr) :=
  match stateIsOpen h p with
  | none => none
  | some o =>
    match deleteStatus h p with
    | none => none
    | some h' => some (h', if o then .ok else .closedSuccessfully)

/-- `ObjectState::Fail()` (object.cc lines 71-79). -/
def stateFail (h : List (Cell σ)) (p : Ptr) (s : σ) : List (Cell σ) × Ptr :=
  match p with
  | .failed a => (h, .failed a)
  | _ => (h ++ [{ closed := p == .closedSuccessfully, status := s, deleted := 0 }],
      .failed h.length)

/-- `ObjectState::SetStatus()` (object.cc lines 81-88); the precondition is checked
by the caller. -/
def stateSetStatus (h : List (Cell σ)) (p : Ptr) (s : σ) : Option (List (Cell σ)) :=
  match p with
  | .failed a =>
    match load h a with
    | none => none
    | some c => some (h.set a { c with status := s })
  | _ => none

/-- `Object::Fail()` (object.cc lines 98-106). -/
def objectFail (annotate : σ → σ) (h : List (Cell σ)) (p : Ptr) (s : σ) :
    Option (List (Cell σ) × Ptr) :=
  if !stateNotFailed p then some (h, p)
  else
    let (h, p) := stateFail h p s
    match stateStatus h p with
    | some (.failure s') =>
      match stateSetStatus h p (annotate s') with
      | none => none
      | some h => some (h, p)
    | _ => none

/-- The calls of `Fail()` in `Done()` of the derived class (object.cc line 92). -/
def objectDone (annotate : σ → σ) : List σ → List (Cell σ) → Ptr → Option (List (Cell σ) × Ptr)
  | [], h, p => some (h, p)
  | s :: ss, h, p =>
    match objectFail annotate h p s with
    | none => none
    | some (h, p) => objectDone annotate ss h p

/-- Combines the parts of an outcome for the variable `w` (not code: the assignment of
`status_ptr_`, object.h line 114). -/
def put (m : Mem σ) (w : Nat) (r : Ret σ) : Option (List (Cell σ) × Ptr) → Out σ
  | none => .useAfterFree
  | some (h, p) => .next { heap := h, objs := m.objs.set w (some p) } r

/-- What an observer returns (object.h lines 162-173). -/
def look (m : Mem σ) : Option (Ret σ) → Out σ
  | none => .useAfterFree
  | some r => .next m r

/-- One operation (object.h lines 137-304, object.cc lines 28-133, as cited at each case). -/
def step (annotate : Nat → σ → σ) (m : Mem σ) : Op σ → Out σ
  -- object.h lines 114, 243
  | .newOpen => .next { m with objs := m.objs ++ [some .ok] } .void
  -- object.h lines 42, 240
  | .newClosed => .next { m with objs := m.objs ++ [some .closedSuccessfully] } .void
  -- object.h lines 307-308
  | .newMoved v =>
    match m.objs[v]? with
    | some (some p) =>
      .next { m with objs := m.objs.set v (some .closedSuccessfully) ++ [some p] } .void
    | _ => .refused
  -- object.cc lines 28-32: the inner `exchange` on `that` comes first
  | .moveAssign w v =>
    match m.objs[w]?, m.objs[v]? with
    | some (some _), some (some p) =>
      let objs := m.objs.set v (some .closedSuccessfully)
      match objs[w]? with
      | some (some old) => put { m with objs := objs } w .void ((deleteStatus m.heap old).map (·, p))
      | _ => .refused
    | _, _ => .refused
  -- object.cc line 34
  | .destroy w =>
    match m.objs[w]? with
    | some (some p) =>
      match deleteStatus m.heap p with
      | none => .useAfterFree
      | some h => .next { heap := h, objs := m.objs.set w none } .void
    | _ => .refused
  -- object.cc line 40
  | .resetOpen w =>
    match m.objs[w]? with
    | some (some p) => put m w .void ((deleteStatus m.heap p).map (·, .ok))
    | _ => .refused
  -- object.cc lines 36-38
  | .resetClosed w =>
    match m.objs[w]? with
    | some (some p) => put m w .void ((deleteStatus m.heap p).map (·, .closedSuccessfully))
    | _ => .refused
  -- object.cc lines 90-94
  | .close w done =>
    match m.objs[w]? with
    | some (some p) =>
      match stateIsOpen m.heap p with
      | none => .useAfterFree
      | some false => .next m (.bool (stateNotFailed p))
      | some true =>
        match objectDone (annotate w) done m.heap p with
        | none => .useAfterFree
        | some (h, p) =>
          match stateMarkClosed h p with
          | none => .useAfterFree
          | some (h, p, b) => put m w (.bool b) (some (h, p))
    | _ => .refused
  | .ok w =>
    match m.objs[w]? with
    | some (some p) => look m (some (.bool (stateOk p)))
    | _ => .refused
  | .isOpen w =>
    match m.objs[w]? with
    | some (some p) => look m ((stateIsOpen m.heap p).map .bool)
    | _ => .refused
  | .notFailed w =>
    match m.objs[w]? with
    | some (some p) => look m (some (.bool (stateNotFailed p)))
    | _ => .refused
  | .status w =>
    match m.objs[w]? with
    | some (some p) => look m ((stateStatus m.heap p).map .status)
    | _ => .refused
  | .fail w s =>
    match m.objs[w]? with
    | some (some p) => put m w (.bool false) (objectFail (annotate w) m.heap p s)
    | _ => .refused
  -- object.cc lines 120-128
  | .failWithoutAnnotation w s =>
    match m.objs[w]? with
    | some (some p) =>
      put m w (.bool false)
        (some (if !stateNotFailed p then (m.heap, p) else stateFail m.heap p s))
    | _ => .refused
  -- object.cc lines 130-133
  | .statusOrAnnotate w s =>
    match m.objs[w]? with
    | some (some p) =>
      look m (if !stateOk p then (stateStatus m.heap p).map .status
        else some (.status (.failure (annotate w s))))
    | _ => .refused
  | .markNotFailed w =>
    match m.objs[w]? with
    | some (some p) => put m w .void (stateMarkNotFailed m.heap p)
    | _ => .refused
  -- object.cc lines 108-114
  | .setStatus w s =>
    match m.objs[w]? with
    | some (some p) =>
      if stateNotFailed p then .refused
      else put m w .void ((stateSetStatus m.heap p s).map (·, p))
    | _ => .refused

/-- A history of operations with the values they returned. -/
def exec (annotate : Nat → σ → σ) (m : Mem σ) : List (Op σ) → Option (Mem σ × List (Ret σ))
  | [] => some (m, [])
  | op :: ops =>
    match step annotate m op with
    | .next m' r => (exec annotate m' ops).map (fun x => (x.1, r :: x.2))
    | _ => none

/-- No variables, nothing allocated. -/
def Mem.init : Mem σ := { heap := [], objs := [] }

end Riegeli.Obj
