import Verif.Lemmas.Wider
import Verif.Props.RoundTrip
import Verif.Props.Taken

/-!
# Property C70: wider number types

`WiderAll ts ts'` says that the types `ts'` are the types `ts` with wider numbers in some places, at any depth.
-/
namespace EthAbi
open Spec

/-- **C70** (encode).  What `encode` gives for some types it gives for wider types. -/
theorem C70_encode [Ext] {types types' : List TypeStr} {ts ts' : List Ty} (hT : Names types ts)
    (hT' : Names types' ts') (hw : WiderAll ts ts') {args : PyVal} {vs : List PyVal} (ha : IsListOf args vs)
    (hp : Places900All vs) (hs : 128 * weight args < 2 ^ 256) {b : Bytes} (h : encode types args = .ok b) :
    encode types' args = .ok b := by
  obtain ⟨xs, h1, rfl⟩ := (C60_encode hT ha hp hs).1 h
  refine (C60_encode hT' ha hp hs).2 ⟨xs, wider_taken.2 hw vs xs h1, ?_⟩
  unfold encodeArgs
  rw [(wider_shape.2 hw).2.2.2.1]

/-- **C70** (decode).  What `decode` reads with some types it reads with wider types, from any data. -/
theorem C70_decode [Ext] {types types' : List TypeStr} {ts ts' : List Ty} (hT : Names types ts)
    (hT' : Names types' ts') (hw : WiderAll ts ts') {data : PyVal} {d : Bytes} (hd : IsBytes data d) (hl : Fits d)
    {strict : Bool} {v : PyVal} (h : decode types data strict = .ok v) : decode types' data strict = .ok v := by
  obtain ⟨xs, h1, rfl⟩ := (decode_reads hT hd hl).1 h
  refine (decode_reads hT' hd hl).2 ⟨xs, ((wider_readsArgs hw).1 h1).2, ?_⟩
  rw [(wider_shape.2 hw).2.2.2.2.1]

/-- **C70** (the other way).  Decoding with the narrower types is decoding with the wider ones, and checking that
`encode` takes the values for the narrower types. -/
theorem C70_narrow [Ext] {types types' : List TypeStr} {ts ts' : List Ty} (hT : Names types ts)
    (hT' : Names types' ts') (hw : WiderAll ts ts') {data : PyVal} {d : Bytes} (hd : IsBytes data d) (hl : Fits d)
    {strict : Bool} {v : PyVal} (hs : 128 * weight v < 2 ^ 256) :
    decode types data strict = .ok v ↔ decode types' data strict = .ok v ∧ ∃ b, encode types v = .ok b := by
  constructor
  · intro h
    obtain ⟨b, hb, -⟩ := C15_reencode hd hl h hs
    exact ⟨C70_decode hT hT' hw hd hl h, b, hb⟩
  · rintro ⟨hv, b, he⟩
    obtain ⟨xs, h1, rfl⟩ := (decode_reads hT' hd hl).1 hv
    have hx := readsArgs_of h1
    obtain ⟨ys, h2, -⟩ := encode_spec hT (.tuple _) he (wider_onGrid.2 hw _ (toPy_onGridAll hx))
    have h3 := wider_denote.2 hw _ _ h2
    rw [denote_toPyAll (fun t _ => denote_toPy t) hx] at h3
    injection h3 with h3
    subst h3
    refine (decode_reads hT hd hl).2 ⟨xs, (wider_readsArgs hw).2 ⟨denoteAll_of h2, h1⟩, ?_⟩
    rw [(wider_shape.2 hw).2.2.2.2.1]

/-! ## The hypotheses are met -/

theorem Ex.wider : WiderAll [.tuple [.dyn (.uint 8), .fixed 16 2], .string]
    [.tuple [.dyn (.int 16), .fixed 256 2], .string] :=
  .cons (.tuple (.cons (.dyn (.signed (by omega))) (.cons (.fixed (by omega)) .nil))) (.cons (.same _) .nil)

theorem Ex.names_narrow [Ext] : Names [t!"(uint8[],fixed16x2)", t!"string"]
    [.tuple [.dyn (.uint 8), .fixed 16 2], .string] :=
  .cons ⟨.tuple (s := t!"uint8[],fixed16x2") (.cons (s := t!"uint8[]") (s' := t!"fixed16x2")
    (.dyn (s := t!"uint8") (.uint (n := 8) (by decide)))
    (.one (.fixed (m := 16) (n := 2) (by decide) (by decide) (by decide)))), by decide⟩
    (.cons ⟨.string, by decide⟩ .nil)

theorem Ex.names_wide [Ext] : Names [t!"(int16[],fixed256x2)", t!"string"]
    [.tuple [.dyn (.int 16), .fixed 256 2], .string] :=
  .cons ⟨.tuple (s := t!"int16[],fixed256x2") (.cons (s := t!"int16[]") (s' := t!"fixed256x2")
    (.dyn (s := t!"int16") (.int (n := 16) (by decide)))
    (.one (.fixed (m := 256) (n := 2) (by decide) (by decide) (by decide)))), by decide⟩
    (.cons ⟨.string, by decide⟩ .nil)

/-- The same bytes. -/
example : letI := Ex.ext
    encode [t!"uint8[]", t!"fixed16x2"] (.list [.list [.int 255], .dec (.fin (-123) (-1))]) =
      .ok (be32 64 ++ wordOf (-1230) ++ be32 1 ++ be32 255) ∧
    encode [t!"int16[]", t!"fixed256x2"] (.list [.list [.int 255], .dec (.fin (-123) (-1))]) =
      .ok (be32 64 ++ wordOf (-1230) ++ be32 1 ++ be32 255) := by
  decide +kernel

/-- Data that only the wider types take. -/
example : letI := Ex.ext
    decode [t!"int16[]"] (.bytes (be32 32 ++ be32 1 ++ be32 256)) = .ok (.tuple [.tuple [.int 256]]) ∧
    (decode [t!"uint8[]"] (.bytes (be32 32 ++ be32 1 ++ be32 256))).isOk = false ∧
    (encode [t!"uint8[]"] (.tuple [.tuple [.int 256]])).isOk = false := by
  decide +kernel

end EthAbi
