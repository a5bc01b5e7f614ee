import Verif.Lemmas.UnrollRead
import Verif.Props.Examples

/-! # C52: arrays in terms of tuples and of their elements -/
namespace EthAbi
open Spec

/-! ## C52 -/

/-- **C52.**  Write some of the `T[k]`, at any depth, as `(T,…,T)`: `encode` accepts the same
arguments and returns the same bytes. -/
theorem C52_encode [Ext] {types types' : List TypeStr} {ts ts' : List Ty} (hT : Names types ts)
    (hT' : Names types' ts') (hU : UnrolledAll ts ts') (args : PyVal) (b : Bytes) :
    encode types args = .ok b ↔ encode types' args = .ok b := by
  have hv := Ty.allValid_iff.2 (supportedAll_valid hT)
  cases ha : listOrTuple? args with
  | none =>
    constructor
    · intro h
      obtain ⟨_, vs, _, h1, _⟩ := encode_ok (pk := false) h
      rw [ha] at h1; cases h1
    · intro h
      obtain ⟨_, vs, _, h1, _⟩ := encode_ok (pk := false) h
      rw [ha] at h1; cases h1
  | some vs =>
    have h1 : encode types args = _ := encode_eq false hT ha
    have h2 : encode types' args = _ := encode_eq false hT' ha
    rw [h1, h2]
    exact (unrolledAll_same false hU hv).encode args b

/-- **C52.**  The same for `encode_packed`. -/
theorem C52_encode_packed [Ext] {types types' : List TypeStr} {ts ts' : List Ty} (hT : Names types ts)
    (hT' : Names types' ts') (hU : UnrolledAll ts ts') (args : PyVal) (b : Bytes) :
    encodePacked types args = .ok b ↔ encodePacked types' args = .ok b := by
  have hv := Ty.allValid_iff.2 (supportedAll_valid hT)
  cases ha : listOrTuple? args with
  | none =>
    constructor
    · intro h
      obtain ⟨_, vs, _, h1, _⟩ := encode_ok (pk := true) h
      rw [ha] at h1; cases h1
    · intro h
      obtain ⟨_, vs, _, h1, _⟩ := encode_ok (pk := true) h
      rw [ha] at h1; cases h1
  | some vs =>
    have h1 : encodePacked types args = _ := encode_eq true hT ha
    have h2 : encodePacked types' args = _ := encode_eq true hT' ha
    rw [h1, h2]
    exact (unrolledAll_same true hU hv).encode args b

/-- **C52, one direction for `decode`.**  Whatever data decode with the arrays decode to the same value
with the tuples. -/
theorem C52_decode [Ext] {types types' : List TypeStr} {ts ts' : List Ty} (hT : Names types ts)
    (hT' : Names types' ts') (hU : UnrolledAll ts ts') {data : PyVal} {d : Bytes} (hd : IsBytes data d)
    (hl : Fits d) {strict : Bool} {v : PyVal} (h : decode types data strict = .ok v) :
    decode types' data strict = .ok v := by
  have hv := Ty.allValid_iff.2 (supportedAll_valid hT)
  obtain ⟨xs, h1, rfl⟩ := (decode_reads hT hd hl).1 h
  refine (decode_reads hT' hd hl).2 ⟨xs, ?_, ?_⟩
  · have h2 := (unrolledAll_reads codeHead_wordsOk (fun _ _ => unrolledAll_codeHead) hU hv).reads h1
    exact readsAll_lo_le (unrolledAll_codeHead hU hv) h2
  · rw [unrolledAll_toPy hU (readsArgs_of h1)]

/-- **C52, the other direction for `decode`, part.**  Data that are well formed, with all offsets behind
the heads they belong to, decode to the same value in both forms.  Missing: data with an offset into a
head, see `C52_decode_false`. -/
theorem C52_decode_partial [Ext] {types types' : List TypeStr} {ts ts' : List Ty} (hT : Names types ts)
    (hT' : Names types' ts') (hU : UnrolledAll ts ts') {data : PyVal} {d : Bytes} (hd : IsBytes data d)
    (hl : Fits d) {strict : Bool} {xs : List Val}
    (h : ReadsArgs headBytes strict ts d xs ∨ ReadsArgs headBytes strict ts' d xs) :
    decode types data strict = .ok (.tuple (toPyAll ts xs)) ∧
      decode types' data strict = .ok (.tuple (toPyAll ts xs)) := by
  have hv := Ty.allValid_iff.2 (supportedAll_valid hT)
  have e := unrolledAll_headBytes hU hv
  have h1 : ReadsArgs headBytes strict ts d xs := by
    rcases h with h | h
    · exact h
    · have := (unrolledAll_reads_back headBytes_wordsOk
        (fun _ _ h hv => (unrolledAll_headBytes h hv).ge) hU hv).reads h
      rw [e] at this
      exact this
  have h2 : decode types data strict = .ok (.tuple (toPyAll ts xs)) :=
    (decode_reads hT hd hl).2 ⟨xs, readsArgs_codeHead (supportedAll_valid hT) h1, rfl⟩
  exact ⟨h2, C52_decode hT hT' hU hd hl h2⟩

section
attribute [local instance] Ex.ext

theorem Ex.names_array : Names [t!"uint8[2]", t!"bytes"] [.sized 2 (.uint 8), .bytes] :=
  .cons ⟨.sized (s := t!"uint8") (k := 2) (.uint (n := 8) (by decide)) (by decide) (by decide), by decide⟩
    (.cons ⟨.bytes, by decide⟩ .nil)

theorem Ex.names_pair : Names [t!"(uint8,uint8)", t!"bytes"] [.tuple [.uint 8, .uint 8], .bytes] :=
  .cons ⟨.tuple (s := t!"uint8,uint8") (.cons (s := t!"uint8") (s' := t!"uint8")
    (.uint (n := 8) (by decide)) (.one (.uint (n := 8) (by decide)))), by decide⟩
    (.cons ⟨.bytes, by decide⟩ .nil)

theorem Ex.unrolled_pair : UnrolledAll [.sized 2 (.uint 8), .bytes] [.tuple [.uint 8, .uint 8], .bytes] :=
  .cons (.unroll 2 (.refl _)) (.cons (.refl _) .nil)
end

/-- The other direction is false for `decode`.  The head of `["uint8[2]", "bytes"]` and of
`["(uint8,uint8)", "bytes"]` has 96 bytes.  The offset 64, which points into it, is refused with the
array and followed with the tuple. -/
theorem C52_decode_false : ¬ ∀ [Ext] (types types' : List TypeStr) (ts ts' : List Ty), Names types ts →
    Names types' ts' → UnrolledAll ts ts' → ∀ (d : Bytes) (v : PyVal), Fits d →
      decode types' (.bytes d) = .ok v → decode types (.bytes d) = .ok v := by
  intro hall
  have h := @hall Ex.ext _ _ _ _ Ex.names_array Ex.names_pair Ex.unrolled_pair
    (be32 1 ++ be32 2 ++ be32 64 ++ List.replicate 64 7)
    (.tuple [.tuple [.int 1, .int 2], .bytes (List.replicate 64 7)]) (by decide +kernel)
    (by let := Ex.ext; decide +kernel)
  revert h
  let := Ex.ext
  decide +kernel

example : letI := Ex.ext
    decode [t!"uint8[2]", t!"bytes"] (.bytes (be32 1 ++ be32 2 ++ be32 64 ++ List.replicate 64 7)) =
      .error .invalidPointer := by
  let := Ex.ext
  decide +kernel

/-- **C52.**  A single `T[k]` and a single `(T,…,T)`: `decode` does the same on all data, with the same
exceptions. -/
theorem C52_decode_single [Ext] {s : TypeStr} {t : Ty} (hT : Supported s t) {k : Nat} (hk : 0 < k)
    (hn : numOk k = true) {data : PyVal} {d : Bytes} (hd : IsBytes data d) (hl : Fits d) (strict : Bool) :
    decode [s ++ t!"[" ++ natDigits k ++ t!"]"] data strict =
      decode [tupleStr (List.replicate k s)] data strict := by
  have h1 := supported_sized hT hk hn
  have hN := names_replicate hT k
  have h2 := tupleStr_supported hN (by intro h0; simp at h0; omega)
  rw [decode_eq (.cons h1 .nil) (isBytes_iff.1 hd) hl, decode_eq (.cons h2 .nil) (isBytes_iff.1 hd) hl,
    posTop_unroll strict hk]
  cases h : posTop strict [.sized k t] d with
  | error e => rfl
  | ok xs =>
    have hv : (Ty.sized k t).Valid := ⟨hk, supportedAll_valid (.cons hT .nil) t (by simp)⟩
    have h3 := readsArgs_of ((posTop_iff (by simpa using hv) strict hl).1 h)
    simp only [ok_bind]
    rw [unrolledAll_toPy (.cons (.unroll k (.refl t)) .nil) h3]

/-! ## `T[]` and the list of its elements -/

/-- **C52.**  `encode(['T[]'], [v])` with a list `v` of `n` values: the words 32 and `n`, and the bytes of
`encode(['T', …, 'T'], v)`; or the same exception. -/
theorem C52_dynamic_encode [Ext] {s : TypeStr} {t : Ty} (hT : Supported s t) {v : PyVal} {vs : List PyVal}
    (hv : IsListOf v vs) (hn : vs.length < 2 ^ 256) :
    encode [s ++ t!"[]"] (.list [v]) =
      match encode (List.replicate vs.length s) v with
      | .ok b => .ok (be32 32 ++ be32 vs.length ++ b)
      | .error e => .error e := by
  have hval : t.Valid := supportedAll_valid (.cons hT .nil) t (by simp)
  have hvs := isListOf_iff.1 hv
  have h1 : encode [s ++ t!"[]"] (.list [v]) = _ :=
    encode_eq false (.cons (supported_dyn hT) .nil) rfl
  have h2 : encode (List.replicate vs.length s) v = _ := encode_eq false (names_replicate hT _) hvs
  have hg := encOf_good false t hval
  have hd := encOf_good false (.dyn t) hval
  have hcall := dyn_call hg.validateOrCall_eq (isListOf_like hv) hn
  have h3 : encode [s ++ t!"[]"] (.list [v]) = tupleEncode [mkDynamicArray (encOf false t)] (.list [v]) := h1
  have h4 : encode (List.replicate vs.length s) v = tupleEncode (List.replicate vs.length (encOf false t)) v := by
    rw [h2, encsOf_replicate]
    rfl
  rw [h3, h4, single_dynamic (E := mkDynamicArray (encOf false t)) rfl v (hd.validateOrCall_eq v), hcall]
  · cases tupleEncode (List.replicate vs.length (encOf false t)) v with
    | error e => rfl
    | ok b => simp only [ok_bind, List.append_assoc]
  · intro er her
    rw [hcall, ← encodeElements_tuple hg.validateOrCall_eq (isListOf_like hv)]
    have her : arrayValidate (encOf false t) v = .error er := her
    simp only [encodeElements, her, error_bind]

/-- **C52.**  Data of the words 32 and `n` and then `d` decode as `T[]` to `v` if and only if `d` decode
as `n` values of type `T` to `v`. -/
theorem C52_dynamic_decode [Ext] {s : TypeStr} {t : Ty} (hT : Supported s t) {n : Nat} (hn : n < 2 ^ 256)
    {d : Bytes} (hl : Fits (be32 32 ++ be32 n ++ d)) (v : PyVal) :
    decode [s ++ t!"[]"] (.bytes (be32 32 ++ be32 n ++ d)) = .ok (.tuple [v]) ↔
      decode (List.replicate n s) (.bytes d) = .ok v := by
  have hd : Fits d := by simp only [Fits, List.length_append] at hl ⊢; omega
  rw [decode_reads (names_replicate hT n) (.bytes _) hd,
    decode_reads (.cons (supported_dyn hT) .nil) (.bytes _) hl]
  constructor
  · rintro ⟨ys, h1, h2⟩
    obtain ⟨xs, rfl, h3⟩ := (readsArgs_dyn hn).1 h1
    refine ⟨xs, h3, ?_⟩
    have : xs.length = n := by simpa using readsAll_length h3
    subst this
    simp only [toPyAll, toPy, PyVal.tuple.injEq, List.cons.injEq, and_true] at h2
    rw [toPyAll_replicate, h2]
  · rintro ⟨xs, h1, rfl⟩
    refine ⟨[.seq xs], (readsArgs_dyn hn).2 ⟨xs, rfl, h1⟩, ?_⟩
    have : xs.length = n := by simpa using readsAll_length h1
    subst this
    simp only [toPyAll, toPy, toPyAll_replicate]

/-! ## Concrete cases -/

section
attribute [local instance] Ex.ext

/-- `(int8,string)[2]` as `((int8,string),(int8,string))`, the other types as they are. -/
def Ex.types' : List TypeStr := [t!"((int8,string),(int8,string))", t!"bytes", t!"fixed8x1", t!"uint"]

theorem Ex.names' : Names Ex.types'
    [.tuple [.tuple [.int 8, .string], .tuple [.int 8, .string]], .bytes, .fixed 8 1, .uint 256] := by
  have h : Spells true t!"(int8,string)" (.tuple [.int 8, .string]) :=
    .tuple (s := t!"int8,string") (.cons (s := t!"int8") (s' := t!"string")
      (.int (n := 8) (by decide)) (.one .string))
  refine .cons ⟨?_, by decide⟩ (.cons ⟨.bytes, by decide⟩ (.cons ⟨?_, by decide⟩
    (.cons ⟨.uint256, by decide⟩ .nil)))
  · exact .tuple (s := t!"(int8,string),(int8,string)")
      (.cons (s := t!"(int8,string)") (s' := t!"(int8,string)") h (.one h))
  · exact .fixed (m := 8) (n := 1) (by decide) (by decide) (by decide)

theorem Ex.unrolled' : UnrolledAll Ex.tys
    [.tuple [.tuple [.int 8, .string], .tuple [.int 8, .string]], .bytes, .fixed 8 1, .uint 256] :=
  .cons (.unroll 2 (.refl _)) (.cons (.refl _) (.cons (.refl _) (.cons (.refl _) .nil)))

example : encode Ex.types' (.list Ex.args) = .ok (encodeArgs Ex.tys Ex.vals) :=
  (C52_encode Ex.names Ex.names' Ex.unrolled' _ _).1 Ex.encodes

example : encodePacked [t!"(uint8,uint8)", t!"bytes"] (.list [.tuple [.int 1, .int 2], .bytes [3]]) =
    .ok [1, 2, 3] :=
  (C52_encode_packed Ex.names_array Ex.names_pair Ex.unrolled_pair _ _).1 (by decide +kernel)

example : decode Ex.types' (.bytes (encodeArgs Ex.tys Ex.vals)) = .ok (.tuple
    [.tuple [.tuple [.int (-2), .str (ofChars t!"abc")], .tuple [.int 127, .str []]],
     .bytes [1, 2, 3], .dec (.fin (-12) (-1)), .int 7]) :=
  C52_decode Ex.names Ex.names' Ex.unrolled' (.bytes _) Ex.fits Ex.decodes

/-- The offset 96 behind the head, and after it a byte that is not used. -/
example : decode [t!"uint8[2]", t!"bytes"] (.bytes (be32 1 ++ be32 2 ++ be32 97 ++ [255] ++ be32 1 ++
      padRight32 [7])) = .ok (.tuple [.tuple [.int 1, .int 2], .bytes [7]]) ∧
    decode [t!"(uint8,uint8)", t!"bytes"] (.bytes (be32 1 ++ be32 2 ++ be32 97 ++ [255] ++ be32 1 ++
      padRight32 [7])) = .ok (.tuple [.tuple [.int 1, .int 2], .bytes [7]]) :=
  C52_decode_partial Ex.names_array Ex.names_pair Ex.unrolled_pair (.bytes _) (by decide +kernel)
    (strict := true) (xs := [.seq [.num 1, .num 2], .raw [7]])
    (.inr ⟨⟨⟨by simp [Val.Of, fitsU], by decide +kernel⟩, ⟨by simp [Val.Of, fitsU], by decide +kernel⟩, trivial⟩,
      ⟨97, by decide +kernel, by decide +kernel, by decide +kernel, by decide +kernel,
        by decide +kernel, by decide +kernel⟩, trivial⟩)

example : decode [t!"(uint8,uint8,uint8)"] (.bytes (be32 1 ++ be32 256 ++ be32 3)) false =
    .error .nonEmptyPaddingBytes :=
  (C52_decode_single (s := t!"uint8") (t := .uint 8) (k := 3) ⟨.uint (n := 8) (by decide), by decide⟩ (by decide)
    (by decide) (.bytes _) (by decide +kernel) false).symm.trans (by decide +kernel)

example : encode [t!"string[]"] (.list [.list [.str (ofChars t!"a"), .str []]]) =
    .ok (be32 32 ++ be32 2 ++ (be32 64 ++ be32 128 ++ be32 1 ++ padRight32 [97] ++ be32 0)) :=
  (C52_dynamic_encode (s := t!"string") ⟨.string, by decide⟩ (.list _) (by decide +kernel)).trans
    (by decide +kernel)

example : encode [t!"uint8[]"] (.list [.tuple [.int 1, .int 256]]) = .error .valueOutOfBounds :=
  (C52_dynamic_encode (s := t!"uint8") ⟨.uint (n := 8) (by decide), by decide⟩ (.tuple _)
    (by decide +kernel)).trans (by decide +kernel)

example : decode [t!"string[]"] (.bytes (be32 32 ++ be32 2 ++ (be32 64 ++ be32 128 ++ be32 1 ++
      padRight32 [97] ++ be32 0))) = .ok (.tuple [.tuple [.str (ofChars t!"a"), .str []]]) :=
  (C52_dynamic_decode (s := t!"string") ⟨.string, by decide⟩ (n := 2) (by decide +kernel)
    (by decide +kernel) _).2 (by decide +kernel)
end

end EthAbi
