import Verif.Props.RoundTrip

/-!
# Property C68: encoding again what was decoded tells canonical data from other data

`encodeArgs ts xs` is the encoding of the values `xs` in the ABI specification.
-/
namespace EthAbi
open Spec

/-- **C68** (canonical).  Data that `decode` accepts are the encoding of some values, byte for byte, exactly if encoding
the decoded values again gives these data. -/
theorem C68_canonical [Ext] {types : List TypeStr} {ts : List Ty} (hT : Names types ts) {data : PyVal} {d : Bytes}
    (hd : IsBytes data d) (hl : Fits d) {strict : Bool} {v : PyVal} (h : decode types data strict = .ok v) :
    encode types v = .ok d ↔ ∃ xs, Val.OfAll ts xs ∧ d = encodeArgs ts xs := by
  obtain ⟨xs, h1, rfl⟩ := (decode_reads hT hd hl).1 h
  have hx := readsArgs_of h1
  constructor
  · intro he
    obtain ⟨ys, h2, h3⟩ := encode_spec hT (.tuple _) he (toPy_onGridAll hx)
    exact ⟨ys, denoteAll_of h2, h3⟩
  · rintro ⟨ys, hy, rfl⟩
    have h2 := (decode_reads hT hd hl).2 ⟨ys, readsArgs_enc codeHead_ok (supportedAll_valid hT) strict hl hy
      (List.prefix_refl _), rfl⟩
    rw [h2] at h
    injection h with h
    rw [← h]
    exact encode_of hT (.tuple _) (denote_toPyAll (fun t _ => denote_toPy t) hy) (fits_lt hl)

/-- **C68** (with more bytes behind).  The data begin with the encoding of some values exactly if they begin with the
encoding of the decoded values. -/
theorem C68_prefix [Ext] {types : List TypeStr} {ts : List Ty} (hT : Names types ts) {data : PyVal} {d : Bytes}
    (hd : IsBytes data d) (hl : Fits d) {strict : Bool} {v : PyVal} (h : decode types data strict = .ok v) :
    (∃ b, encode types v = .ok b ∧ b <+: d) ↔ ∃ xs, Val.OfAll ts xs ∧ encodeArgs ts xs <+: d := by
  obtain ⟨xs, h1, rfl⟩ := (decode_reads hT hd hl).1 h
  have hx := readsArgs_of h1
  constructor
  · rintro ⟨b, he, hp⟩
    obtain ⟨ys, h2, rfl⟩ := encode_spec hT (.tuple _) he (toPy_onGridAll hx)
    exact ⟨ys, denoteAll_of h2, hp⟩
  · rintro ⟨ys, hy, hp⟩
    have h2 := (decode_reads hT hd hl).2 ⟨ys, readsArgs_enc codeHead_ok (supportedAll_valid hT) strict hl hy hp, rfl⟩
    rw [h2] at h
    injection h with h
    rw [← h]
    exact ⟨_, encode_of hT (.tuple _) (denote_toPyAll (fun t _ => denote_toPy t) hy)
      (lt_of_le_of_lt hp.length_le (fits_lt hl)), hp⟩

/-- **C68** (one of them).  Of all data that decode to the same values, at most one is canonical: it is what `encode`
gives. -/
theorem C68_one [Ext] {types : List TypeStr} {ts : List Ty} (hT : Names types ts) {d d' : Bytes} (hl : Fits d)
    (hl' : Fits d') {strict strict' : Bool} {v : PyVal} (h : decode types (.bytes d) strict = .ok v)
    (h' : decode types (.bytes d') strict' = .ok v) {xs ys : List Val} (hx : Val.OfAll ts xs) (hy : Val.OfAll ts ys)
    (he : d = encodeArgs ts xs) (he' : d' = encodeArgs ts ys) : d = d' := by
  have h1 := (C68_canonical hT (.bytes d) hl h).2 ⟨xs, hx, he⟩
  have h2 := (C68_canonical hT (.bytes d') hl' h').2 ⟨ys, hy, he'⟩
  rw [h1] at h2
  injection h2

/-- Data that are not canonical although `decode` accepts them, strictly: `string`, with an offset that skips a word. -/
def Ex.skips : Bytes := be32 64 ++ be32 7 ++ be32 1 ++ [97] ++ List.replicate 31 0

example : letI := Ex.ext
    decode [t!"string"] (.bytes Ex.skips) = .ok (.tuple [.str (ofChars t!"a")]) ∧
    encode [t!"string"] (.tuple [.str (ofChars t!"a")]) ≠ .ok Ex.skips := by
  decide +kernel

/-- So they are not the encoding of any text. -/
example : letI := Ex.ext
    ¬ ∃ xs, Val.OfAll [.string] xs ∧ Ex.skips = encodeArgs [.string] xs := by
  letI := Ex.ext
  have hT : Names [t!"string"] [.string] := .cons ⟨.string, by decide⟩ .nil
  rw [← C68_canonical hT (.bytes Ex.skips) (by decide +kernel) (strict := true)
    (v := .tuple [.str (ofChars t!"a")]) (by decide +kernel)]
  decide +kernel

/-- Canonical data. -/
example : letI := Ex.ext
    decode [t!"string"] (.bytes (be32 32 ++ be32 1 ++ [97] ++ List.replicate 31 0)) =
      .ok (.tuple [.str (ofChars t!"a")]) ∧
    encode [t!"string"] (.tuple [.str (ofChars t!"a")]) = .ok (be32 32 ++ be32 1 ++ [97] ++ List.replicate 31 0) := by
  decide +kernel

end EthAbi
