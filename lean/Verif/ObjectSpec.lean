import Verif.ObjectState

/-!
# What `Object` promises (C51), without pointers

From the comments of `riegeli/base/object.h`: an object is open or closed, and
failed (with a status) or not failed.
-/

namespace Riegeli.Obj

variable {σ : Type}

/-- The state of an object according to object.h lines 117-129. -/
structure Spec (σ : Type) where
  opened : Bool
  failure : Option σ
deriving DecidableEq

/-- `Fail()`: "If `Fail()` is called multiple times, the first `absl::Status` wins"
(object.h lines 175-193). -/
def Spec.fail (o : Spec σ) (s : σ) : Spec σ :=
  { o with failure := some (o.failure.getD s) }

/-- `status()` (object.h lines 170-173). -/
def Spec.status (o : Spec σ) : Seen σ :=
  match o.failure with
  | some s => .failure s
  | none => if o.opened then .okStatus else .objectClosed

/-- `not_failed()` (object.h line 168). -/
def Spec.notFailed (o : Spec σ) : Bool := o.failure.isNone

/-- `ok()` (object.h line 162). -/
def Spec.ok (o : Spec σ) : Bool := o.opened && o.failure.isNone

/-- `Close()` (object.h lines 137-159), with the failures `done` found while closing. -/
def Spec.close (o : Spec σ) (done : List σ) : Spec σ :=
  if o.opened then
    { opened := false,
      failure := match o.failure with
        | some s => some s
        | none => done.head? }
  else o

/-- A moved-from object is closed (object.h lines 122-123, 128-129). -/
def Spec.movedFrom : Spec σ := { opened := false, failure := none }

/-- One operation on the objects, and what it returns.  `none` among the objects is
a destroyed one; a result of `none` is a call which the program may not make. -/
def specStep (annotate : Nat → σ → σ) (objs : List (Option (Spec σ))) :
    Op σ → Option (List (Option (Spec σ)) × Ret σ)
  | .newOpen => some (objs ++ [some { opened := true, failure := none }], .void)
  | .newClosed => some (objs ++ [some { opened := false, failure := none }], .void)
  | .newMoved v =>
    match objs[v]? with
    | some (some o) => some (objs.set v (some .movedFrom) ++ [some o], .void)
    | _ => none
  | .moveAssign w v =>
    match objs[w]?, objs[v]? with
    | some (some _), some (some o) => some ((objs.set v (some .movedFrom)).set w (some o), .void)
    | _, _ => none
  | .destroy w =>
    match objs[w]? with
    | some (some _) => some (objs.set w none, .void)
    | _ => none
  | .resetOpen w =>
    match objs[w]? with
    | some (some _) => some (objs.set w (some { opened := true, failure := none }), .void)
    | _ => none
  | .resetClosed w =>
    match objs[w]? with
    | some (some _) => some (objs.set w (some { opened := false, failure := none }), .void)
    | _ => none
  | .close w done =>
    match objs[w]? with
    | some (some o) =>
      let o' := o.close (done.map (annotate w))
      some (objs.set w (some o'), .bool o'.notFailed)
    | _ => none
  | .ok w => match objs[w]? with
    | some (some o) => some (objs, .bool o.ok)
    | _ => none
  | .isOpen w => match objs[w]? with
    | some (some o) => some (objs, .bool o.opened)
    | _ => none
  | .notFailed w => match objs[w]? with
    | some (some o) => some (objs, .bool o.notFailed)
    | _ => none
  | .status w => match objs[w]? with
    | some (some o) => some (objs, .status o.status)
    | _ => none
  | .fail w s => match objs[w]? with
    | some (some o) => some (objs.set w (some (o.fail (annotate w s))), .bool false)
    | _ => none
  | .failWithoutAnnotation w s => match objs[w]? with
    | some (some o) => some (objs.set w (some (o.fail s)), .bool false)
    | _ => none
  | .statusOrAnnotate w s => match objs[w]? with
    | some (some o) =>
      some (objs, .status (if o.ok then .failure (annotate w s) else o.status))
    | _ => none
  | .markNotFailed w => match objs[w]? with
    | some (some o) => some (objs.set w (some { o with failure := none }), .void)
    | _ => none
  | .setStatus w s => match objs[w]? with
    | some (some o) =>
      if o.notFailed then none else some (objs.set w (some { o with failure := some s }), .void)
    | _ => none

/-- A history. -/
def specExec (annotate : Nat → σ → σ) (objs : List (Option (Spec σ))) :
    List (Op σ) → Option (List (Option (Spec σ)) × List (Ret σ))
  | [] => some (objs, [])
  | op :: ops =>
    match specStep annotate objs op with
    | some (objs', r) => (specExec annotate objs' ops).map (fun x => (x.1, r :: x.2))
    | none => none

end Riegeli.Obj
