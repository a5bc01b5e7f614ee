import Verif.Lemmas.Lengths
import Verif.Props.Examples

/-! # C85: how long an encoding is -/
namespace EthAbi
open Spec

/-- **C85.**  The length of what `encode` returns, whatever it accepts: 32 bytes for each elementary value, for a byte string
its length in one word and then its bytes in whole words, for `T[]` one word more, and one word for the pointer to each
dynamic argument, item or component. -/
theorem C85_encode [Ext] {types : List TypeStr} {ts : List Ty} (hT : Names types ts) {args : PyVal} {vs : List PyVal}
    (ha : IsListOf args vs) {b : Bytes} (h : encode types args = .ok b) : TakesAll false ts vs b.length :=
  takes_encode false hT ha h

/-- **C85.**  The length of what `encode_packed` returns: the widths of the types and the lengths of the byte strings, and
nothing else. -/
theorem C85_packed [Ext] {types : List TypeStr} {ts : List Ty} (hT : Names types ts) {args : PyVal} {vs : List PyVal}
    (ha : IsListOf args vs) {b : Bytes} (h : encodePacked types args = .ok b) : TakesAll true ts vs b.length :=
  takes_encode true hT ha h

/-- **C85.**  The count has one result: whoever counts can foretell the length. -/
theorem C85_unique [Ext] {pk : Bool} {types : List TypeStr} {ts : List Ty} (hT : Names types ts) {vs : List PyVal} {n m : Nat}
    (h : TakesAll pk ts vs n) (h' : TakesAll pk ts vs m) : n = m :=
  takesAll_unique (supportedAll_valid hT) h h'

/-- **C85.**  The packed encoding is never the longer one. -/
theorem C85_packed_shorter [Ext] {types : List TypeStr} {args : PyVal} {b b' : Bytes}
    (h : encode types args = .ok b) (h' : encodePacked types args = .ok b') : b'.length ≤ b.length := by
  obtain ⟨ts, vs, hT, ha, _, _⟩ := encode_ok (pk := false) h
  have ha' : IsListOf args vs := by
    cases args <;> simp only [listOrTuple?, Option.some.injEq, reduceCtorEq] at ha
    · subst ha; exact .list _
    · subst ha; exact .tuple _
  exact takesAll_packed (supportedAll_valid hT) (C85_packed hT ha' h') (C85_encode hT ha' h)

/-- `encode(["uint8", "bytes[]"], [7, [b"", b"abc"]])` is 32 + 32 + (32 + (32 + 32) + (32 + 32 + 32)) bytes long. -/
example : TakesAll false [.uint 8, .dyn .bytes] [.int 7, .list [.bytes [], .bytes [97, 98, 99]]] 256 :=
  .cons (n := 32) (m := 224) (.uint 8 _) (.cons (n := 192) (m := 0)
    (.dyn (n := 160) (.list _) (.cons (n := 32) (m := 96) (.bytes (.bytes [])) (.cons (n := 64) (m := 0)
      (.bytes (.bytes [97, 98, 99])) (.nil _)))) .nil)

example : letI := Ex.ext
    (match encode [t!"uint8", t!"bytes[]"] (.list [.int 7, .list [.bytes [], .bytes [97, 98, 99]]]) with
      | .ok b => b.length
      | .error _ => 0) = 256 := by decide +kernel

/-- `encode_packed(["uint16", "string", "bool[]"], [7, "ab", (True, False)])` is 2 + 2 + 2 bytes long. -/
example : TakesAll true [.uint 16, .string, .dyn .bool]
    [.int 7, .str (ofChars ['a', 'b']), .tuple [.bool true, .bool false]] 6 :=
  .cons (n := 2) (m := 4) (.uint 16 _) (.cons (n := 2) (m := 2) (.string (b := [97, 98]) (by decide +kernel))
    (.cons (n := 2) (m := 0) (.dyn (n := 2) (.tuple _) (.cons (n := 1) (m := 1) (.bool _)
      (.cons (n := 1) (m := 0) (.bool _) (.nil _)))) .nil))

example : letI := Ex.ext
    (match encodePacked [t!"uint16", t!"string", t!"bool[]"]
        (.list [.int 7, .str (ofChars ['a', 'b']), .tuple [.bool true, .bool false]]) with
      | .ok b => b.length
      | .error _ => 0) = 6 := by decide +kernel

end EthAbi
