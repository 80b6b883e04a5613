import Verif.List.ArrayModel
import Verif.List.LinkedModel
import Verif.Queue.RingModel
import Verif.Common.Callback

/-! `Traverse` of the array list, the linked list and the circular queue with a callback that calls
methods of the container it is handed elements of. Such a walk may go on for ever (a callback that
appends an element each time it is called), so the walks are cut after a number of rounds: a result
ends with `true` if `Traverse` has returned and with `false` if that many calls of the callback were
not enough. -/

namespace Verif.AList
variable {T : Type} [Inhabited T]

/-- list/array_list/array_list.go:269-275 `Traverse`; `size`, `data` and `headidx` are read again in
every round. The list after the walk, what was handed to the callback, whether `Traverse` has
returned. -/
def AL.walk (maxLen : Nat) (every : Nat → T → Prog (Op T) (Res T) Bool) :
    Nat → Nat → AL T → Except Fail (AL T × List (Nat × T) × Bool)
  | 0, _, l => .ok (l, [], false)
  | n + 1, i, l =>
    if i < l.size then
      match at' l.data (add64 (add64 i l.headidx) 1) with
      | .error e => .error e
      | .ok v =>
        match (every i v).runE (AL.step maxLen) l with
        | .error e => .error e
        | .ok (l, true) =>
          match AL.walk maxLen every n (i + 1) l with
          | .error e => .error e
          | .ok (l, seen, fin) => .ok (l, (i, v) :: seen, fin)
        | .ok (l, false) => .ok (l, [(i, v)], true)
    else .ok (l, [], true)

end Verif.AList

namespace Verif.LList
variable {T : Type} [Inhabited T]

/-- list/linked_list/linked_list.go:258-264 `Traverse`: `cur` is a pointer, and its `next` is read
after the callback. `none` is the panic for a nil pointer. -/
def walk (every : T → Prog (Op T) (Res T) Bool) :
    Nat → Option Nat → St T → Option (St T × List T × Bool)
  | _, none, _ => none
  | 0, some _, s => some (s, [], false)
  | n + 1, some cur, s =>
    if cur = 1 then some (s, [], true)
    else
      match (every (s.l.heap cur).val).run step s with
      | none => none
      | some (s', true, _) =>
        match walk every n (s'.l.heap cur).next s' with
        | none => none
        | some (s'', seen, fin) => some (s'', (s.l.heap cur).val :: seen, fin)
      | some (s', false, _) => some (s', [(s.l.heap cur).val], true)

def traverseWith (every : T → Prog (Op T) (Res T) Bool) (n : Nat) (s : St T) :
    Option (St T × List T × Bool) := walk every n (s.l.heap 0).next s

end Verif.LList

namespace Verif.Queue
variable {α : Type} [Inhabited α]

/-- queue/linkedarray/queue.go:157-163: the second loop of `Traverse`. -/
def Ring.walk2 (every : Nat → α → Prog (Op α) (Res α) Bool) :
    Nat → Nat → Nat → Ring α → Option (Ring α × List (Nat × α) × Bool)
  | 0, _, _, q => some (q, [], false)
  | n + 1, i, idx, q =>
    if i < q.fin then
      match q.data[i]? with
      | none => none
      | some v =>
        match (every idx v).run Ring.step q with
        | none => none
        | some (q, true, _) =>
          match Ring.walk2 every n (i + 1) (idx + 1) q with
          | none => none
          | some (q, seen, fin) => some (q, (idx, v) :: seen, fin)
        | some (q, false, _) => some (q, [(idx, v)], true)
    else some (q, [], true)

/-- queue/linkedarray/queue.go:144-165 `Traverse`: the first loop, and the second one after it; `cap`,
`size`, `end` and `data` are read again in every round, `start` only once. `idx` and `count` are
always equal. -/
def Ring.walk1 (every : Nat → α → Prog (Op α) (Res α) Bool) :
    Nat → Nat → Nat → Ring α → Option (Ring α × List (Nat × α) × Bool)
  | 0, _, _, q => some (q, [], false)
  | n + 1, i, idx, q =>
    if i < q.cap ∧ idx < q.size then
      match q.data[i]? with
      | none => none
      | some v =>
        match (every idx v).run Ring.step q with
        | none => none
        | some (q, true, _) =>
          match Ring.walk1 every n (i + 1) (idx + 1) q with
          | none => none
          | some (q, seen, fin) => some (q, (idx, v) :: seen, fin)
        | some (q, false, _) => some (q, [(idx, v)], true)
    else if idx < q.size then Ring.walk2 every (n + 1) 0 idx q
    else some (q, [], true)

def Ring.traverseWith (every : Nat → α → Prog (Op α) (Res α) Bool) (n : Nat) (q : Ring α) :
    Option (Ring α × List (Nat × α) × Bool) := Ring.walk1 every n q.start 0 q

end Verif.Queue
