import Verif.Stack.Model
import Verif.Map.HashModel
import Verif.Map.LinkedModel
import Verif.List.ArrayModel
import Verif.List.LinkedModel
import Verif.Tree.AvlModel
import Verif.Tree.SizeModel

/-! Models of the methods `String`. A text is its list of bytes. `fmt` is not modelled: what `%v` gives
for one element is a parameter `sh`, any function. For a slice `%v` gives `[`, the texts of the elements
with a blank between two of them, and `]`. -/

namespace Verif.Print

/-- A Go string or the content of a `bytes.Buffer`. -/
abbrev Text := List UInt8

/-- What `strings.Join` does. -/
def join (sep : Text) : List Text → Text
  | [] => []
  | [a] => a
  | a :: b :: xs => a ++ sep ++ join sep (b :: xs)

/-- `fmt.Sprintf("%v", values)` of a slice, given the texts of its elements. -/
def sprintSlice (xs : List Text) : Text := 91 :: join [32] xs ++ [93]

section
variable {α : Type} [Inhabited α] (sh : α → Text)

/-- stack/array/stack.go:62-64 `String`. -/
def arrayStack (s : Stack.AStack α) : Text := sprintSlice (s.element.map sh)

/-- stack/list/stack.go:41-43 `String`. -/
def listStack (s : Stack.LStack α) : Option Text := s.values.map fun l => sprintSlice (l.map sh)

/-- stack/listarray/stack.go:94-97 `String`. -/
def segStack (s : Stack.GStack α) : Option Text := s.values.map fun l => sprintSlice (l.map sh)

/-- list/array_list/array_list.go:264-266 `String`. -/
def arrayList (maxLen : Nat) (l : AList.AL α) : Except AList.Fail Text :=
  (l.values maxLen).map fun r => sprintSlice (r.map sh)

/-- list/linked_list/linked_list.go:253-255 `String`. -/
def linkedList (l : LList.LL α) : Option Text := l.values.map fun r => sprintSlice (r.map sh)

end

section
variable {K V : Type} [DecidableEq K] [Inhabited K] [Inhabited V] (shK : K → Text) (shV : V → Text)

/-- map/linkedhashmap/linked_hashmap.go:37-39 `String` of a `Slice`: `{key:value}`. -/
def slice (e : K × V) : Text := 123 :: shK e.1 ++ 58 :: shV e.2 ++ [125]

/-- map/linkedhashmap/linked_hashmap.go:296-298 `String`; `fmt.Sprint` of a slice is as `%v`. -/
def linkedHashMap (m : Map.Linked.LHM K V) : Option Text :=
  m.entries.map fun l => sprintSlice (l.map (slice shK shV))

/-- set/hashset/hashset.go:72-81 `String`. -/
def hashSet (ro : Map.RangeOrder (K × Unit)) (m : GoMap K Unit) : Text :=
  let content := [91]
  let items := (ro.order m).foldl (fun items e => items ++ [shK e.1]) []
  let content := content ++ join [44] items
  content ++ [93]

/-- set/treeset/tree.go:168-176 `str`: what is written to the buffer. -/
def str {A : Type} : Tree A K V → Text → Text
  | .nil, content => content
  | .node _ _ v l r, content => str r (str l content ++ (shV v ++ [32]))

/-- set/treeset/tree.go:178-193 `String`; `none` is an index out of range. -/
def treeSet (m : Avl.Map K V) : Option Text :=
  let buf := str shV m.root [91]
  match buf.getLast? with
  | none => none
  | some b => if b = 32 then some (buf.dropLast ++ [93]) else some (buf ++ [93])

end

/-! ### tree/indextree -/

section
variable {K V : Type} (sh : K → Text)

/-- `"\033[34m│   \033[0m"`. -/
def blueBar : Text := [27, 91, 51, 52, 109, 226, 148, 130, 32, 32, 32, 27, 91, 48, 109]
/-- `"\033[31m│   \033[0m"`. -/
def redBar : Text := [27, 91, 51, 49, 109, 226, 148, 130, 32, 32, 32, 27, 91, 48, 109]
/-- Four blanks. -/
def blanks : Text := [32, 32, 32, 32]
/-- `"\033[34m└── \033[0m"`. -/
def blueMark : Text :=
  [27, 91, 51, 52, 109, 226, 148, 148, 226, 148, 128, 226, 148, 128, 32, 27, 91, 48, 109]
/-- `"\033[31m┌── \033[0m"`. -/
def redMark : Text :=
  [27, 91, 51, 49, 109, 226, 148, 140, 226, 148, 128, 226, 148, 128, 32, 27, 91, 48, 109]

/-- tree/indextree/debug_utils.go:98-129 `outputfordebugNoSuffix`: `str` afterwards. It is only called
for a node that is there. -/
def output : Size.T K V → Text → Bool → Text → Text
  | .nil, _, _, str => str
  | .node _ k _ l r, pre, isTail, str =>
    let str := output r (pre ++ if isTail then blueBar else blanks) false str
    let str := str ++ pre
    let str := str ++ if isTail then blueMark else redMark
    let str := str ++ (sh k ++ [10])
    output l (pre ++ if isTail then blanks else redBar) true str

/-- `"IndexTree\n"`. -/
def header : Text := [73, 110, 100, 101, 120, 84, 114, 101, 101, 10]

/-- tree/indextree/tree.go:36-38 `String`, debug_utils.go:131-146 `debugString`. The package variable
`IsDebugString` is false unless a user writes it; the longer lines it makes are not modelled. -/
def indexTree (t : Size.T K V) : Text :=
  match t with
  | .nil => header ++ [110, 105, 108]
  | t => output sh t [] true header

end

end Verif.Print
