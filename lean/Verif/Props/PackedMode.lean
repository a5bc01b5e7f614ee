import Verif.Lemmas.PackedMode
import Verif.Props.Packed

/-!
# Properties C66 and C67: packed mode and Solidity, and which arguments it tells apart

`Spec/Packed.lean` has packed mode as Solidity defines it (`solPackedAll`).
-/
namespace EthAbi
open Spec

/-! ## C66 -/

/-- **C66, part.**  `encode_packed` gives what Solidity's `abi.encodePacked` gives, for all types that packed mode has.
Missing: non-empty arrays with elements shorter than 32 bytes, for which this is false (`C66_exact`). -/
theorem C66_conforms_partial [Ext] {types : List TypeStr} {ts : List Ty} (hT : Names types ts)
    (hp : ∀ t ∈ ts, InPackedMode t) {args : PyVal} {vs : List PyVal} (ha : IsListOf args vs) (hg : OnGridAll ts vs)
    {b : Bytes} (h : encodePacked types args = .ok b) {xs : List Val} (hd : denoteAll ts vs = some xs)
    (hn : ∀ p ∈ ts.zip xs, NarrowArray p.1 → p.2 = .seq []) : b = solPackedAll ts xs := by
  obtain ⟨xs', h1, rfl⟩ := C34_packed hT ha hg h
  rw [hd] at h1
  cases h1
  exact (sol_all hp (allValid_forall.2 (supportedAll_valid hT)) (denoteAll_of hd)).2.1 hn

/-- **C66, exactly.**  `encode_packed` gives what Solidity gives if and only if every argument for an array with
elements shorter than 32 bytes is empty; otherwise its output is shorter. -/
theorem C66_exact [Ext] {types : List TypeStr} {ts : List Ty} (hT : Names types ts)
    (hp : ∀ t ∈ ts, InPackedMode t) {args : PyVal} {vs : List PyVal} (ha : IsListOf args vs) (hg : OnGridAll ts vs)
    {b : Bytes} (h : encodePacked types args = .ok b) {xs : List Val} (hd : denoteAll ts vs = some xs) :
    (b = solPackedAll ts xs ↔ ∀ p ∈ ts.zip xs, NarrowArray p.1 → p.2 = .seq []) ∧
    (b ≠ solPackedAll ts xs → b.length < (solPackedAll ts xs).length) := by
  obtain ⟨xs', h1, rfl⟩ := C34_packed hT ha hg h
  rw [hd] at h1
  cases h1
  obtain ⟨h1, h2, h3⟩ := sol_all hp (allValid_forall.2 (supportedAll_valid hT)) (denoteAll_of hd)
  refine ⟨⟨fun he => h3 (congrArg List.length he), h2⟩, fun hne => Nat.lt_of_le_of_ne h1 fun he => hne (h2 (h3 he))⟩

/-- The example of the documentation is not what Solidity gives: `encode_packed(['int8[]'], [[1, 2]])` is two bytes and
`abi.encodePacked` of an `int8[]` with the same elements is 64 bytes. -/
theorem C66_conforms_false [Ext] :
    encodePacked [t!"int8[]"] (.list [.list [.int 1, .int 2]]) = .ok [1, 2] ∧
    solPackedAll [.dyn (.int 8)] [.seq [.num 1, .num 2]] = be32 1 ++ be32 2 ∧
    denoteAll [.dyn (.int 8)] [.list [.int 1, .int 2]] = some [.seq [.num 1, .num 2]] := by
  have hT : Names [t!"int8[]"] [.dyn (.int 8)] :=
    .cons ⟨.dyn (s := t!"int8") (.int (n := 8) (by decide)), by decide⟩ .nil
  have hd : denoteAll [.dyn (.int 8)] [.list [.int 1, .int 2]] = some [.seq [.num 1, .num 2]] := by rfl
  refine ⟨?_, by decide +kernel, hd⟩
  have := C34_complete hT (.list _) hd (by decide +kernel)
  exact this.trans (by decide +kernel)

/-! ## C67 -/

/-- **C67, part** (different arguments).  If the types have at most one part of variable length between them, arguments
with the same packed encoding denote the same values.  Missing: off-grid fixed-point arguments, as in C43. -/
theorem C67_injective_partial [Ext] {types : List TypeStr} {ts : List Ty} (hT : Names types ts) (ho : OneVariableAll ts)
    {args args' : PyVal} {vs vs' : List PyVal} (ha : IsListOf args vs) (ha' : IsListOf args' vs')
    (hg : OnGridAll ts vs) (hg' : OnGridAll ts vs') {b : Bytes} (h : encodePacked types args = .ok b)
    (h' : encodePacked types args' = .ok b) : ∃ xs, denoteAll ts vs = some xs ∧ denoteAll ts vs' = some xs := by
  obtain ⟨xs, h1, h2⟩ := C34_packed hT ha hg h
  obtain ⟨ys, h3, h4⟩ := C34_packed hT ha' hg' h'
  have := packedAll_inj ho (allValid_forall.2 (supportedAll_valid hT)) xs ys (denoteAll_of h1) (denoteAll_of h3) (h2.symm.trans h4)
  subst this
  exact ⟨xs, h1, h3⟩

/-- **C67** (the same encoding).  For all other types there are two lists of arguments which denote different values
and have the same packed encoding.  (The bound is met by all types but those with arrays of enormous fixed length: it
says that there is a `bytes` object long enough.) -/
theorem C67_collision [Ext] {types : List TypeStr} {ts : List Ty} (hT : Names types ts) (ho : ¬ OneVariableAll ts)
    (hs : (packedSpans ts + 2) ^ 2 < 2 ^ 63) :
    ∃ vs vs' xs ys b, denoteAll ts vs = some xs ∧ denoteAll ts vs' = some ys ∧ xs ≠ ys ∧
      encodePacked types (.list vs) = .ok b ∧ encodePacked types (.list vs') = .ok b := by
  have hv := supportedAll_valid hT
  obtain ⟨xs, ys, h1, h2, h3, h4, h5⟩ := collideAll (fun t ht => collide t (hv t ht)) (allValid_forall.2 hv) ho
  have hd := denote_toPyAll (fun t _ => denote_toPy t) h1
  have hd' := denote_toPyAll (fun t _ => denote_toPy t) h2
  have hf : Fits (encPackedAll ts xs) := by
    unfold Fits ssizeMax
    omega
  refine ⟨_, _, xs, ys, encPackedAll ts xs, hd, hd', h3, C34_complete hT (.list _) hd hf, ?_⟩
  rw [h4] at hf ⊢
  exact C34_complete hT (.list _) hd' hf

/-- **C67** (the length).  For types of fixed length the packed encoding has the same length for all arguments. -/
theorem C67_length [Ext] {types : List TypeStr} {ts : List Ty} (hT : Names types ts) (ho : Ty.anyDynamic ts = false) :
    ∃ w, ∀ args vs b, IsListOf args vs → OnGridAll ts vs → encodePacked types args = .ok b → b.length = w := by
  obtain ⟨w, _, hw, _⟩ := fixedLengthAll (allValid_forall.2 (supportedAll_valid hT)) ho
  refine ⟨w, fun args vs b ha hg h => ?_⟩
  obtain ⟨xs, h1, rfl⟩ := C34_packed hT ha hg h
  exact hw xs (denoteAll_of h1)

/-! ## Examples -/

/-- Types and arguments that meet the hypotheses of `C66_conforms_partial`: an array of words and an empty `uint8[]`. -/
example : letI := Ex.ext
    encodePacked [t!"uint256[2]", t!"uint8[]", t!"string"]
      (.list [.list [.int 1, .int 2], .list [], .str (ofChars t!"ab")]) =
    .ok (solPackedAll [.sized 2 (.uint 256), .dyn (.uint 8), .string]
      [.seq [.num 1, .num 2], .seq [], .text (ofChars t!"ab")]) := by decide +kernel

/-- The example of `docs/encoding.rst`. -/
example : letI := Ex.ext
    encodePacked [t!"int8[]", t!"uint32"] (.tuple [.list [.int 1, .int 2, .int 3, .int 4], .int 12345]) =
      .ok [1, 2, 3, 4, 0, 0, 48, 57] := by decide +kernel

/-- A narrow array: `bytes1[]` as well. -/
example : NarrowArray (.dyn (.bytesM 1)) ∧ InPackedMode (.dyn (.bytesM 1)) := ⟨.dyn rfl (by decide), .dyn rfl⟩

/-- Types with one part of variable length, in a tuple. -/
example : OneVariableAll [.uint 256, .tuple [.bool, .string, .sized 3 .address], .bytesM 4] :=
  .static rfl (.one (.tuple (.static rfl (.one .string rfl))) rfl)

/-- The best known collision: `("a", "bc")` and `("ab", "c")`. -/
example : letI := Ex.ext
    encodePacked [t!"string", t!"string"] (.list [.str (ofChars t!"a"), .str (ofChars t!"bc")]) =
    encodePacked [t!"string", t!"string"] (.list [.str (ofChars t!"ab"), .str (ofChars t!"c")]) := by
  decide +kernel

/-- A collision in a single argument. -/
example : letI := Ex.ext
    encodePacked [t!"uint8[][]"] (.list [.list [.list [.int 1], .list [.int 2]]]) =
    encodePacked [t!"uint8[][]"] (.list [.list [.list [.int 1, .int 2], .list []]]) := by
  decide +kernel

/-- `OneVariableAll` is false of two strings, and of a single `string[2]`. -/
example : ¬ OneVariableAll [.string, .string] ∧ ¬ OneVariableAll [.sized 2 .string] := by
  constructor
  · intro h
    cases h with
    | static h _ => cases h
    | one _ h => cases h
  · intro h
    cases h with
    | static h _ => cases h
    | one h _ => cases h with | static h => cases h

end EthAbi
