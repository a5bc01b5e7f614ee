import Verif.Lemmas.Recast
import Verif.Props.RoundTrip

/-!
# Property C71: the layout of data and the types of the words are read independently

`Ty.bare` replaces every type of one word by `bytes32`, and `string` by `bytes`, at any depth; `Val.bare` replaces every
value by its word, and every text by its UTF-8 bytes.
-/
namespace EthAbi
open Spec

/-- **C71** (decode).  `decode` finds the values `xs` in the data exactly when, with the bare types, it finds their words
and their UTF-8 bytes: what a word or a byte string is read as does not matter for where anything is read. -/
theorem C71_decode [Ext] {types types' : List TypeStr} {ts : List Ty} (hT : Names types ts)
    (hT' : Names types' (Ty.bareAll ts)) {data : PyVal} {d : Bytes} (hd : IsBytes data d) (hl : Fits d) {strict : Bool}
    {xs : List Val} (hx : Val.OfAll ts xs) :
    decode types data strict = .ok (.tuple (toPyAll ts xs)) ↔
      decode types' data strict = .ok (.tuple (toPyAll (Ty.bareAll ts) (Val.bareAll ts xs))) := by
  have hv := supportedAll_valid hT
  rw [decode_value hT hd hl hx, decode_value hT' hd hl (bareAll_enc hv hx).1, bare_readsArgs hv]
  exact and_iff_right hx

/-- **C71** (a consequence).  Whatever can be decoded can be decoded with the bare types, and gives the words. -/
theorem C71_bare [Ext] {types types' : List TypeStr} {ts : List Ty} (hT : Names types ts)
    (hT' : Names types' (Ty.bareAll ts)) {data : PyVal} {d : Bytes} (hd : IsBytes data d) (hl : Fits d) {strict : Bool}
    {v : PyVal} (h : decode types data strict = .ok v) :
    ∃ xs, Val.OfAll ts xs ∧ v = .tuple (toPyAll ts xs) ∧
      decode types' data strict = .ok (.tuple (toPyAll (Ty.bareAll ts) (Val.bareAll ts xs))) := by
  obtain ⟨xs, h1, rfl⟩ := (decode_reads hT hd hl).1 h
  exact ⟨xs, readsArgs_of h1, rfl, (C71_decode hT hT' hd hl (readsArgs_of h1)).1 h⟩

/-- **C71** (another type).  Data read with other types of the same layout: if the values `xs'` of the types `ts'` have the
words and UTF-8 bytes of the values `xs` of the types `ts`, then `decode` gives `xs'` for `ts'` where it gives `xs` for
`ts`. -/
theorem C71_recast [Ext] {types types' : List TypeStr} {ts ts' : List Ty} (hT : Names types ts)
    (hT' : Names types' ts') {xs xs' : List Val} (hx : Val.OfAll ts xs) (hx' : Val.OfAll ts' xs')
    (ht : Ty.bareAll ts = Ty.bareAll ts') (hxs : Val.bareAll ts xs = Val.bareAll ts' xs')
    {data : PyVal} {d : Bytes} (hd : IsBytes data d) (hl : Fits d) {strict : Bool} :
    decode types data strict = .ok (.tuple (toPyAll ts xs)) ↔
      decode types' data strict = .ok (.tuple (toPyAll ts' xs')) := by
  rw [decode_value hT hd hl hx, decode_value hT' hd hl hx', bare_readsArgs (supportedAll_valid hT),
    bare_readsArgs (supportedAll_valid hT'), ht, hxs]
  exact ⟨fun h => ⟨hx', h.2⟩, fun h => ⟨hx, h.2⟩⟩

/-- **C71** (encode).  Arguments that denote values with the same words and UTF-8 bytes, in types of the same layout, have
the same encoding. -/
theorem C71_encode [Ext] {types types' : List TypeStr} {ts ts' : List Ty} (hT : Names types ts)
    (hT' : Names types' ts') {args args' : PyVal} {vs vs' : List PyVal} (ha : IsListOf args vs)
    (ha' : IsListOf args' vs') {xs xs' : List Val} (hx : denoteAll ts vs = some xs) (hx' : denoteAll ts' vs' = some xs')
    (ht : Ty.bareAll ts = Ty.bareAll ts') (hxs : Val.bareAll ts xs = Val.bareAll ts' xs')
    (hl : Fits (encodeArgs ts xs)) :
    encode types args = .ok (encodeArgs ts xs) ∧ encode types' args' = .ok (encodeArgs ts xs) := by
  have he : encodeArgs ts xs = encodeArgs ts' xs' := by
    rw [← (bareAll_enc (supportedAll_valid hT) (denoteAll_of hx)).2,
      ← (bareAll_enc (supportedAll_valid hT') (denoteAll_of hx')).2, ht, hxs]
  refine ⟨encode_of hT ha hx (fits_lt hl), ?_⟩
  rw [he] at hl ⊢
  exact encode_of hT' ha' hx' (fits_lt hl)

/-- **C71** (which values have the same words).  Booleans and fixed-point numbers have the words of the integers they are
stored as, an address that of the integer with its bytes, a negative integer that of the integer modulo `2^256`, a `bytesM`
that of the `bytes32` with zeros on the right, and a text is stored as its UTF-8 bytes. -/
theorem C71_leaves (m n k : Nat) (i : Int) (b : Bytes) (s : PyStr) :
    Val.bare .bool (.num i) = Val.bare (.uint n) (.num i) ∧
    Val.bare (.int m) (.num i) = Val.bare (.uint n) (.num (i % 2 ^ 256)) ∧
    Val.bare (.ufixed m k) (.num i) = Val.bare (.uint n) (.num i) ∧
    Val.bare (.fixed m k) (.num i) = Val.bare (.int n) (.num i) ∧
    (b.length = 20 → Val.bare .address (.raw b) = Val.bare (.uint n) (.num (bigEndianToInt b))) ∧
    (0 < b.length ∧ b.length ≤ 32 → Val.bare (.bytesM m) (.raw b) =
      Val.bare (.bytesM 32) (.raw (b ++ List.replicate (32 - b.length) 0))) ∧
    (∀ u, utf8Encode? s = some u → Val.bare .string (.text s) = Val.bare .bytes (.raw u)) := by
  refine ⟨rfl, ?_, rfl, rfl, fun hb => ?_, fun ⟨h0, hb⟩ => ?_, fun u hu => ?_⟩
  · simp only [Val.bare, enc, wordOf, Int.emod_emod_of_dvd _ (dvd_refl _)]
  · have hlt : bigEndianToInt b < 256 ^ 20 := hb ▸ bigEndianToInt_lt b
    simp only [Val.bare, enc]
    rw [wordOf_nat (Nat.lt_of_lt_of_le hlt (by decide)), be32_eq, show (32 : Nat) = 12 + 20 from rfl, beN_small hlt,
      beN_bigEndianToInt' b hb]
  · simp only [Val.bare, enc]
    have h1 : (b ++ List.replicate (32 - b.length) (0 : UInt8)).length = 32 := by simp; omega
    rw [padRight32_word h1]
    unfold padRight32
    rcases Nat.lt_or_ge b.length 32 with h | h
    · rw [show (32 - b.length % 32) % 32 = 32 - b.length from by omega]
    · rw [show (32 - b.length % 32) % 32 = 32 - b.length from by omega]
  · simp only [Val.bare, hu, Option.getD_some]

/-! ## The hypotheses are met -/

theorem Ex.names_bare [Ext] : Names [t!"(bool,string)[]", t!"fixed16x2"]
    [.dyn (.tuple [.bool, .string]), .fixed 16 2] :=
  .cons ⟨.dyn (s := t!"(bool,string)") (.tuple (s := t!"bool,string") (.cons (s := t!"bool") (s' := t!"string")
    .bool (.one .string))), by decide⟩ (.cons ⟨.fixed (m := 16) (n := 2) (by decide) (by decide) (by decide), by decide⟩
    .nil)

/-- The bare types. -/
theorem Ex.names_bare' [Ext] : Names [t!"(bytes32,bytes)[]", t!"bytes32"]
    (Ty.bareAll [.dyn (.tuple [.bool, .string]), .fixed 16 2]) :=
  .cons ⟨.dyn (s := t!"(bytes32,bytes)") (.tuple (s := t!"bytes32,bytes") (.cons (s := t!"bytes32") (s' := t!"bytes")
    (.bytesM (m := 32) (by decide) (by decide)) (.one .bytes))), by decide⟩
    (.cons ⟨.bytesM (m := 32) (by decide) (by decide), by decide⟩ .nil)

/-- The same data with the types, the bare types and other types. -/
example : letI := Ex.ext
    decode [t!"(bool,string)[]", t!"fixed16x2"] (.bytes (be32 64 ++ wordOf (-1230) ++ be32 1 ++ be32 32 ++
      be32 1 ++ be32 64 ++ be32 2 ++ padRight32 [0xc3, 0xa9])) =
      .ok (.tuple [.tuple [.tuple [.bool true, .str [⟨0xe9, by decide⟩]]], .dec (.fin (-123) (-1))]) ∧
    decode [t!"(bytes32,bytes)[]", t!"bytes32"] (.bytes (be32 64 ++ wordOf (-1230) ++ be32 1 ++ be32 32 ++
      be32 1 ++ be32 64 ++ be32 2 ++ padRight32 [0xc3, 0xa9])) =
      .ok (.tuple [.tuple [.tuple [.bytes (be32 1), .bytes [0xc3, 0xa9]]], .bytes (wordOf (-1230))]) ∧
    decode [t!"(uint8,bytes)[]", t!"uint256"] (.bytes (be32 64 ++ wordOf (-1230) ++ be32 1 ++ be32 32 ++
      be32 1 ++ be32 64 ++ be32 2 ++ padRight32 [0xc3, 0xa9])) =
      .ok (.tuple [.tuple [.tuple [.int 1, .bytes [0xc3, 0xa9]]], .int (2 ^ 256 - 1230)]) := by
  decide +kernel

/-- Data that only the bare types take: a word that is no `bool`. -/
example : letI := Ex.ext
    (decode [t!"bool[1]"] (.bytes (be32 2))).isOk = false ∧
    decode [t!"bytes32[1]"] (.bytes (be32 2)) = .ok (.tuple [.tuple [.bytes (be32 2)]]) := by
  decide +kernel

/-- The same encoding. -/
example : letI := Ex.ext
    encode [t!"(bool,string)[]"] (.list [.list [.list [.bool true, .str (ofChars t!"a")]]]) =
      .ok (be32 32 ++ be32 1 ++ be32 32 ++ be32 1 ++ be32 64 ++ be32 1 ++ padRight32 [97]) ∧
    encode [t!"(bytes32,bytes)[]"] (.list [.list [.list [.bytes (be32 1), .bytes [97]]]]) =
      .ok (be32 32 ++ be32 1 ++ be32 32 ++ be32 1 ++ be32 64 ++ be32 1 ++ padRight32 [97]) := by
  decide +kernel

end EthAbi
