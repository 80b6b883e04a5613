import Verif.Common.GoMap
import Verif.Common.DLL
import Verif.Common.History

/-! Model of map/linkedhashmap/linked_hashmap.go. `none` is a nil dereference. -/

namespace Verif.Map.Linked
open DLL
variable {K V : Type} [DecidableEq K] [Inhabited K] [Inhabited V]

/-- map/linkedhashmap/linked_hashmap.go:17-20 with the store of nodes (11-14; `Slice` is the pair
of key and value, `default` is nil). `fresh` is the next unused address. -/
structure LHM (K V : Type) where
  h : Store (K × V)
  fresh : Nat
  head : Nat
  tail : Nat
  hmap : GoMap K Nat

inductive Op (K V : Type) where
  | setBack (k : K) (v : V) | setFront (k : K) (v : V) | pushBack (k : K) (v : V)
  | pushFront (k : K) (v : V) | get (k : K) | set (k : K) (v : V) | upsert (k : K) (v : V)
  | clear | remove (k : K) | empty | len | keys | values | slices

inductive Res (K V : Type) where
  | unit | bool (b : Bool) | val (v : Option V) | nat (n : Nat)
  | keys (l : List K) | values (l : List V) | slices (l : List (K × V))
  deriving DecidableEq

/-- linked_hashmap.go:26-34 `New`. -/
def LHM.new : LHM K V :=
  { h := fun a => if a = 0 then ⟨none, some 1, default⟩ else ⟨some 0, none, default⟩
    fresh := 2, head := 0, tail := 1, hmap := [] }

/-- linked_hashmap.go:137-147 (also 67-76): fill the tail sentinel and append a new one. -/
def LHM.newBack (m : LHM K V) (k : K) (v : V) : LHM K V :=
  let node := m.fresh
  let h := m.h.put node ⟨none, none, default⟩
  let h := h.setVal m.tail (k, v)
  let hmap := m.hmap.set k m.tail
  let h := h.setPrev node (some m.tail)
  let h := h.setNext m.tail (some node)
  { m with h := h, fresh := m.fresh + 1, tail := node, hmap := hmap }

/-- linked_hashmap.go:160-171 (also 108-117). -/
def LHM.newFront (m : LHM K V) (k : K) (v : V) : LHM K V :=
  let node := m.fresh
  let h := m.h.put node ⟨none, none, default⟩
  let h := h.setVal m.head (k, v)
  let hmap := m.hmap.set k m.head
  let h := h.setNext node (some m.head)
  let h := h.setPrev m.head (some node)
  { m with h := h, fresh := m.fresh + 1, head := node, hmap := hmap }

/-- linked_hashmap.go:42-81 `SetBack`. -/
def LHM.setBack (m : LHM K V) (k : K) (v : V) : Option (LHM K V × Bool) :=
  match m.hmap.get k with
  | some node => do
    let h := m.h.setVal node ((m.h node).val.1, v)
    if some node = (h m.tail).prev then
      return ({ m with h := h }, true)
    let prev ← (h node).prev
    let next ← (h node).next
    let h := h.setNext prev (some next)
    let h := h.setPrev next (some prev)
    let tprev ← (h m.tail).prev
    let h := h.setNext tprev (some node)
    let h := h.setPrev node (some tprev)
    let h := h.setNext node (some m.tail)
    let h := h.setPrev m.tail (some node)
    return ({ m with h := h }, true)
  | none => some (m.newBack k v, false)

/-- linked_hashmap.go:84-121 `SetFront`. -/
def LHM.setFront (m : LHM K V) (k : K) (v : V) : Option (LHM K V × Bool) :=
  match m.hmap.get k with
  | some node => do
    let h := m.h.setVal node ((m.h node).val.1, v)
    if some node = (h m.head).next then
      return ({ m with h := h }, true)
    let prev ← (h node).prev
    let next ← (h node).next
    let h := h.setNext prev (some next)
    let h := h.setPrev next (some prev)
    let hnext ← (h m.head).next
    let h := h.setPrev hnext (some node)
    let h := h.setNext node (some hnext)
    let h := h.setPrev node (some m.head)
    let h := h.setNext m.head (some node)
    return ({ m with h := h }, true)
  | none => some (m.newFront k v, false)

/-- linked_hashmap.go:226-246 `Remove` with `remove`. -/
def LHM.remove (m : LHM K V) (k : K) : Option (LHM K V × Option V) :=
  match m.hmap.get k with
  | some node => do
    let hmap := m.hmap.delete k
    let nprev ← (m.h node).prev
    let nnext ← (m.h node).next
    let h := m.h.setNext nprev (some nnext)
    let h := h.setPrev nnext (some nprev)
    return ({ m with h := h, hmap := hmap }, some (h node).val.2)
  | none => some (m, none)

/-- linked_hashmap.go:211-223 `Clear`. -/
def LHM.clear (m : LHM K V) : LHM K V :=
  let h := m.h.setVal m.head default
  let h := h.setPrev m.head none
  let h := h.setVal m.tail default
  let h := h.setNext m.tail none
  let h := h.setNext m.head (some m.tail)
  let h := h.setPrev m.tail (some m.head)
  { m with h := h, hmap := [] }

/-- The loop of `Keys`, `Values` and `Slices` (264-293). -/
def LHM.entries (m : LHM K V) : Option (List (K × V)) :=
  walkTo m.h m.tail m.fresh (m.h m.head).next

/-- One call. `Put` and `InsertIfAbsent` (124-131) are `pushBack`, `Delete` (236) is `remove`. -/
def LHM.step (m : LHM K V) : Op K V → Option (LHM K V × Res K V)
  | .setBack k v => (m.setBack k v).map fun p => (p.1, .bool p.2)
  | .setFront k v => (m.setFront k v).map fun p => (p.1, .bool p.2)
  | .pushBack k v =>                                                   -- 134-154
    match m.hmap.get k with
    | none => some (m.newBack k v, .bool true)
    | some _ => some (m, .bool false)
  | .pushFront k v =>                                                  -- 157-177
    match m.hmap.get k with
    | none => some (m.newFront k v, .bool true)
    | some _ => some (m, .bool false)
  | .get k =>                                                          -- 180-186
    match m.hmap.get k with
    | some node => some (m, .val (some (m.h node).val.2))
    | none => some (m, .val none)
  | .set k v =>                                                        -- 189-196
    match m.hmap.get k with
    | some node => some ({ m with h := m.h.setVal node (k, v) }, .bool true)
    | none => some (m, .bool false)
  | .upsert k v =>                                                     -- 200-208
    match m.hmap.get k with
    | some node => some ({ m with h := m.h.setVal node (k, v) }, .bool true)
    | none => some (m.newBack k v, .bool false)
  | .clear => some (m.clear, .unit)
  | .remove k => (m.remove k).map fun p => (p.1, .val p.2)
  | .empty => some (m, .bool (m.hmap.length == 0))                     -- 249-251
  | .len => some (m, .nat m.hmap.length)                               -- 254-261
  | .keys => m.entries.map fun l => (m, .keys (l.map (·.1)))
  | .values => m.entries.map fun l => (m, .values (l.map (·.2)))
  | .slices => m.entries.map fun l => (m, .slices l)

end Verif.Map.Linked
