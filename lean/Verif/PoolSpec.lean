/-!
# The specification of a recycling pool (C48)

A pool is the list of its idle objects, from the one put first to the one put last,
each with its key and the time when it becomes too old (`none` if never).
-/

namespace Riegeli.Pool

/-- The idle objects, oldest first: key, object, deadline. -/
abbrev Idle (κ β : Type) := List (κ × β × Option Nat)

variable {κ β : Type}

/-- The most recently put object with the key `k`, and the others. -/
def takeNewest [DecidableEq κ] (k : κ) : Idle κ β → Option (β × Idle κ β)
  | [] => none
  | x :: xs =>
    match takeNewest k xs with
    | some (b, rest) => some (b, x :: rest)
    | none => if x.1 = k then some (x.2.1, xs) else none

/-- Adds an object; if there are more than `max`, takes the oldest out. -/
def putNewest (max : Nat) (x : κ × β × Option Nat) (xs : Idle κ β) : Option β × Idle κ β :=
  if (xs ++ [x]).length ≤ max then (none, xs ++ [x])
  else (((xs ++ [x]).head?).map (·.2.1), (xs ++ [x]).tail)

/-- An object is too old at the time `now`. -/
def tooOld (now : Nat) (x : κ × β × Option Nat) : Bool :=
  match x.2.2 with
  | none => false
  | some d => decide (d ≤ now)

/-- What can be done with a pool.  `put` gets the time when the object becomes too old;
`clean` gets the present time. -/
inductive Op (κ β : Type) where
  | get (k : κ)
  | put (k : κ) (b : β) (deadline : Option Nat)
  | clear
  | clean (now : Nat)

/-- What an operation does to the outside: the object it returns, those it destroys, and
when it asks for cleaning. -/
structure Effect (β : Type) where
  returned : Option β
  destroyed : List β
  cleanAt : Option Nat

/-- What an operation has to do. -/
def specOp [DecidableEq κ] (max : Nat) (xs : Idle κ β) : Op κ β → Effect β × Idle κ β
  | .get k =>
    match takeNewest k xs with
    | none => (⟨none, [], none⟩, xs)
    | some (b, rest) => (⟨some b, [], none⟩, rest)
  | .put k b d =>
    let r := putNewest max (k, b, d) xs
    (⟨none, r.1.toList, if r.2.length = 1 then d else none⟩, r.2)
  | .clear => (⟨none, xs.map (·.2.1), none⟩, [])
  | .clean now =>
    let rest := xs.dropWhile (tooOld now)
    (⟨none, (xs.takeWhile (tooOld now)).map (·.2.1), (rest.head?.map (·.2.2)).bind id⟩, rest)

end Riegeli.Pool
