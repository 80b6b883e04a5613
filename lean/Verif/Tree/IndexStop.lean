import Verif.Common.Stop
import Verif.Tree.IndexHeap

/-! The methods of tree/indextree with a comparator that may panic: the programs of `IndexHeap` once
more, but each comparison is a place where the program may stop, and the memory is then left as it is at
that moment. -/

namespace Verif.IndexHeap
open Verif.IndexTree (limit goesLeft Op Res)
variable {K V W : Type}

/-- The loop of `Put`, tree.go:73-100, and of `Set`, tree.go:121-150. -/
def putLoopB (bad : Nat → Bool) (root : Nat) (bal : Bool) (lim : Nat → Option (Int × Int))
    (cmp : K → K → Int) (write : K × V → K × V) (fresh : Nat)
    (key : K) (val : V) (rounds : Nat) : Nat → Mem K V → Nat → Out (Mem K V) (Mem K V × Bool)
  | 0, _, _ => .fail
  | n + 1, m, cur =>
    if bad cur then .stopped m
    else
      let c := cmp key (m cur).key
      if c < 0 then
        match (m cur).lo with
        | some b => putLoopB bad root bal lim cmp write fresh key val rounds n m b
        | none =>
          .of ((fixPut root bal lim rounds
            (link (alloc m fresh cur key val) cur false (some fresh)) cur).map fun m => (m, false))
      else if c > 0 then
        match (m cur).hi with
        | some b => putLoopB bad root bal lim cmp write fresh key val rounds n m b
        | none =>
          .of ((fixPut root bal lim rounds
            (link (alloc m fresh cur key val) cur true (some fresh)) cur).map fun m => (m, false))
      else
        .done (upd m cur fun x =>
          { x with key := (write (x.key, x.val)).1, val := (write (x.key, x.val)).2 }, true)

/-- utils.go:316-333 `getNode`. -/
def getNodeB (bad : Nat → Bool) (cmp : K → K → Int) (m : Mem K V) (key : K) :
    Nat → Option Nat → Out (Mem K V) (Option Nat)
  | 0, _ => .fail
  | _ + 1, none => .done none
  | n + 1, some cur =>
    if bad cur then .stopped m
    else
      let c := cmp key (m cur).key
      if c < 0 then getNodeB bad cmp m key n (m cur).lo
      else if c > 0 then getNodeB bad cmp m key n (m cur).hi
      else .done (some cur)

/-- The loop of `IndexOf`, tree.go:181-199. -/
def indexOfLoopB (bad : Nat → Bool) (cmp : K → K → Int) (m : Mem K V) (key : K) :
    Nat → Nat → Int → Out (Mem K V) Int
  | 0, _, _ => .fail
  | n + 1, cur, offset =>
    if bad cur then .stopped m
    else
      let c := cmp key (m cur).key
      if c < 0 then match (m cur).lo with
        | none => .done (-1)
        | some b => indexOfLoopB bad cmp m key n b (offset - (getSize m (m b).hi + 1))
      else if c > 0 then match (m cur).hi with
        | none => .done (-1)
        | some b => indexOfLoopB bad cmp m key n b (offset + (getSize m (m b).lo + 1))
      else .done offset

/-- utils.go:202-223 `getRangeRoot`. `bad1` is for the comparisons with `low`, `bad2` for those with
`high`. -/
def getRangeRootB (bad1 bad2 : Nat → Bool) (cmp : K → K → Int) (m : Mem K V) (low high : K) :
    Nat → Option Nat → Out (Mem K V) (Option Nat)
  | 0, _ => .fail
  | _ + 1, none => .done none
  | n + 1, some cur =>
    if bad1 cur then .stopped m
    else if bad2 cur then .stopped m
    else
      let c1 := cmp low (m cur).key
      let c2 := cmp high (m cur).key
      if c1 ≠ c2 then .done (some cur)
      else if c1 < 0 then getRangeRootB bad1 bad2 cmp m low high n (m cur).lo
      else if c1 > 0 then getRangeRootB bad1 bad2 cmp m low high n (m cur).hi
      else .done (some cur)

/-- `ltrim`, `rtrim` of `RemoveRange`, tree.go:460-476, 483-499. -/
def cutB (bad : Nat → Bool) (cmp : K → K → Int) (bound : K) (c : Bool) : Nat → Mem K V → Option Nat →
    Out (Mem K V) (Mem K V × Option Nat)
  | 0, _, _ => .fail
  | _ + 1, m, none => .done (m, none)
  | n + 1, m, some a =>
    if bad a then .stopped m
    else
      let x := cmp bound (m a).key
      if (if c then x > 0 else x < 0) then
        (cutB bad cmp bound c n m ((m a).kid c)).map fun p => (hook p.1 a c p.2, some a)
      else cutB bad cmp bound c n m ((m a).kid (!c))

/-- `ltrim`, `rtrim` of `Trim`, tree.go:657-677, 682-702. -/
def trimRecB (bad : Nat → Bool) (cmp : K → K → Int) (bound : K) (c : Bool) : Nat → Mem K V → Option Nat →
    Out (Mem K V) (Mem K V × Option Nat)
  | 0, _, _ => .fail
  | _ + 1, m, none => .done (m, none)
  | n + 1, m, some a =>
    if bad a then .stopped m
    else
      let x := cmp bound (m a).key
      if (if c then x < 0 else x > 0) then trimRecB bad cmp bound c n m ((m a).kid (!c))
      else if (if c then x > 0 else x < 0) then
        (trimRecB bad cmp bound c n m ((m a).kid c)).map fun p => (hook p.1 a c p.2, some a)
      else .done (chop m a c, some a)

/-- tree.go:454-526, `RemoveRange` for `low` below `high`. -/
def removeRangeB (bad : Bad) (root : Nat) (cmp : K → K → Int) (n : Nat) (m : Mem K V) (low high : K) :
    Out (Mem K V) (Mem K V) :=
  (getRangeRootB (bad 1) (bad 2) cmp m low high n (m root).lo).bind fun o =>
    match o with
    | none => .done m
    | some rt =>
      (cutB (bad 3) cmp low true n m (m rt).lo).bind fun p =>
      (cutB (bad 4) cmp high false n p.1 (p.1 rt).hi).bind fun q =>
      .of (joinGroups root n q.1 rt p.2 q.2)

/-- tree.go:654-714, `Trim` for `low` not above `high`. -/
def trimB (bad : Bad) (cmp : K → K → Int) (root n : Nat) (m : Mem K V) (low high : K) :
    Out (Mem K V) (Mem K V) :=
  (getRangeRootB (bad 1) (bad 2) cmp m low high n (m root).lo).bind fun rt =>
  (trimRecB (bad 3) cmp low false n m rt).bind fun p =>
  (trimRecB (bad 4) cmp high true n p.1 rt).map fun q => replant q.1 root rt

section
variable (cmp : K → K → Int) (incl : Bool) (key : K)

/-- The search for `lroot` and `rroot`, tree.go:831-847, 954-969. -/
def splitFindB (bad : Nat → Bool) (m : Mem K V) : Nat → Option Nat → Option Nat → Option Nat →
    Out (Mem K V) (Option Nat × Option Nat × Option Nat)
  | 0, _, _, _ => .fail
  | _ + 1, none, lroot, rroot => .done (none, lroot, rroot)
  | n + 1, some cur, lroot, rroot =>
    if bad cur then .stopped m
    else if goesLeft incl (cmp (m cur).key key) then
      if rroot.isSome then .done ((m cur).hi, some cur, rroot)
      else splitFindB bad m n (m cur).hi (some cur) rroot
    else
      if lroot.isSome then .done ((m cur).lo, lroot, some cur)
      else splitFindB bad m n (m cur).lo lroot (some cur)

/-- `traverse`, tree.go:850-890, 972-1011. -/
def splitRecB (bad : Nat → Bool) : Nat → Mem K V → Option Nat → Nat → Nat → Out (Mem K V) (Mem K V)
  | 0, _, _, _, _ => .fail
  | _ + 1, m, none, lroot, rroot => .done (chop (chop m lroot true) rroot false)
  | n + 1, m, some cur, lroot, rroot =>
    if bad cur then .stopped m
    else
      let c := cmp (m cur).key key
      if c > 0 then
        let m := setParent (link m rroot false (some cur)) cur rroot
        (splitRecB bad n m (m cur).lo lroot cur).map fun m => sumSize m rroot
      else if c < 0 then
        let m := setParent (link m lroot true (some cur)) cur lroot
        (splitRecB bad n m (m cur).hi cur rroot).map fun m => sumSize m lroot
      else if incl then
        let m := setParent (link m lroot true (some cur)) cur lroot
        let right := (m cur).hi
        let m := sumSize (chop m cur true) lroot
        .done (hook m rroot false right)
      else
        let m := setParent (link m rroot false (some cur)) cur rroot
        let left := (m cur).lo
        let m := sumSize (chop m cur false) rroot
        .done (hook m lroot true left)

/-- tree.go:818-938 `Split`, 941-1060 `SplitContain`. With the memory goes the least address not used: the
node `fresh` is made after the search. -/
def splitB (bad : Bad) (junk : K × V) (root fresh n : Nat) (m : Mem K V) :
    Out (Mem K V × Nat) (Mem K V × Bool) :=
  match (m root).lo with
  | none => .done (m, false)
  | some top =>
    ((splitFindB cmp incl key (bad 0) m n (some top) none none).lift (·, fresh)).bind fun s =>
      match s with
      | (_, none, _) =>
        let m := link m root false none
        let m := sentinel junk m fresh
        .done (setParent (link m fresh false (some top)) top fresh, true)
      | (_, some _, none) => .done (sentinel junk m fresh, true)
      | (cur, some lroot, some rroot) =>
        let m := sentinel junk m fresh
        let m := if (m lroot).parent ≠ some rroot then
            setParent (link m fresh false (some rroot)) rroot fresh
          else
            let m := setParent (link m fresh false (some top)) top fresh
            setParent (link m root false (some lroot)) lroot root
        let m := link (link m lroot true none) rroot false none
        ((splitRecB cmp incl key (bad 1) n m cur lroot rroot).lift (·, fresh + 1)).bind fun m =>
        .of ((sumLoop root n m lroot).bind fun m => (sumLoop fresh n m rroot).map fun m => (m, true))

end

section
variable (bad : Bad) (shift : Nat) (cmp : K → K → Int) (junk : K × Option W) (s : PTree K (Option W))

/-- A search that stops leaves its memory to the tree. -/
def PTree.at (m : Mem K (Option W)) : PTree K (Option W) := { s with mem := m }

/-- tree.go:62-102 `Put`, 110-152 `Set`; `i` is the number of the search. -/
def PTree.putWithB (i : Nat) (write : K × Option W → K × Option W) (k : K) (v : Option W) :
    Out (PTree K (Option W)) (PTree K (Option W) × Bool) :=
  match s.top with
  | none => .done (⟨link (alloc s.mem s.free s.root k v) s.root false (some s.free), s.free + 1, s.root⟩,
      false)
  | some cur =>
    ((putLoopB (bad i) s.root true (limit shift) cmp write s.free k v s.free s.free s.mem cur).lift
      s.at).map fun p => (⟨p.1, if p.2 then s.free else s.free + 1, s.root⟩, p.2)

/-- tree.go:62-102 `Put`. -/
def PTree.putB (i : Nat) (k : K) (v : Option W) : Out (PTree K (Option W)) (PTree K (Option W) × Bool) :=
  (s.putWithB bad shift cmp i IndexTree.kept k v).map fun p => (p.1, !p.2)

/-- tree.go:277-349 `Remove`. -/
def PTree.removeB (i : Nat) (k : K) : Out (PTree K (Option W)) (PTree K (Option W) × Option W) :=
  ((getNodeB (bad i) cmp s.mem k s.free s.top).lift s.at).bind fun o =>
    match o with
    | none => .done (s, none)
    | some cur => .of ((removeCell s.root (fun _ w => w) s.free s.mem cur).map fun p =>
        ({ s with mem := p.1 }, p.2))

/-- One call; those of `step` that do not compare are as there. The comparison of the two bounds of a
range, tree.go:446, 647, is the search number 0. -/
def stepB : Op K W → Out (PTree K (Option W)) (PTree K (Option W) × Res K W)
  | .put k v => (s.putB bad shift cmp 0 k v).map fun p => (p.1, .bool p.2)
  | .insertIfAbsent k v => (s.putB bad shift cmp 0 k v).map fun p => (p.1, .bool p.2)
  | .set k v => (s.putWithB bad shift cmp 0 (fun _ => (k, v)) k v).map fun p =>
    (p.1, .bool (s.top.isNone || p.2))
  | .upsert k v =>
    ((getNodeB (bad 0) cmp s.mem k s.free s.top).lift s.at).bind fun o =>
      match o with
      | some cur => .done ({ s with mem := upd s.mem cur fun x => { x with val := v } }, .bool true)
      | none => (s.putB bad shift cmp 1 k v).map fun p => (p.1, .bool false)
  | .get k => ((getNodeB (bad 0) cmp s.mem k s.free s.top).lift s.at).map fun o =>
    (s, .found (o.map fun cur => (s.mem cur).val))
  | .remove k => (s.removeB bad cmp 0 k).map fun p => (p.1, .val p.2)
  | .delete k => (s.removeB bad cmp 0 k).map fun p => (p.1, .found (p.2.map some))
  | .indexOf k => match s.top with
    | none => .done (s, .int (-1))
    | some cur => ((indexOfLoopB (bad 0) cmp s.mem k s.free cur
        (getSize s.mem (s.mem cur).lo)).lift s.at).map fun i => (s, .int i)
  | .removeRange low high =>
    if bad 0 s.root then .stopped s
    else
      let c := cmp low high
      if c > 0 then .done (s, .panic)
      else if c = 0 then (s.removeB bad cmp 1 low).map fun p => (p.1, .unit)
      else ((removeRangeB bad s.root cmp s.free s.mem low high).lift s.at).map fun m =>
        ({ s with mem := m }, .unit)
  | .trim low high =>
    if bad 0 s.root then .stopped s
    else if cmp low high > 0 then .done (s, .panic)
    else ((trimB bad cmp s.root s.free s.mem low high).lift s.at).map fun m => ({ s with mem := m }, .unit)
  | .split key incl other =>
    ((splitB cmp incl key bad junk s.root s.free s.free s.mem).lift
      fun q => ⟨q.1, q.2, s.root⟩).bind fun p =>
      .of (if other then if p.2 then some (⟨p.1, s.free + 1, s.free⟩, .unit) else none
      else some (⟨p.1, s.free + 1, s.root⟩, .unit))
  | op => .of (step shift cmp junk s op)

end
end Verif.IndexHeap
