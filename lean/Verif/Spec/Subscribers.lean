import Verif.Model.Subscribers

/-! # Subscribers called when everything is done -/

namespace Verif

/-- The events sent between two moments. -/
def sent (n : Nat) (w : World) : List Event := (w.log.drop n).map Logged.event

/-- Call the subscribers for each of the events. -/
def callAll (h : Listener) : List Event → M Unit
  | [] => pure ()
  | e :: r => do
    h e
    callAll h r

/-- The subscribers called after an operation that ended with `x`, for the events since the log had `n`
entries: what they do is added to what the operation did; what they raise reaches the caller. -/
def afterwards (h : Listener) (n : Nat) {α : Type} (x : Except Exc α × World) : Except Exc α × World :=
  match x with
  | (.error e, w) => (.error e, w)
  | (.ok a, w) =>
    match callAll h (sent n w) w with
    | (.ok _, w') => (.ok a, w')
    | (.error e, w') => (.error e, w')

/-- The subscribers never raise an exception that `p` holds for. -/
def NotRaised (h : Listener) (p : Exc → Bool) : Prop :=
  ∀ ev w e w', h ev w = (.error e, w') → p e = false

end Verif
