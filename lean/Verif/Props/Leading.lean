import Verif.Lemmas.Leading
import Verif.Props.Examples

/-! # C54: decoding some of the arguments -/
namespace EthAbi
open Spec

/-! ## C54 -/

/-- **C54.**  Whatever data decode with a list of types decode with its first `k` types, to the first `k`
values. -/
theorem C54_leading [Ext] {types : List TypeStr} {data : PyVal} {d : Bytes} (hd : IsBytes data d) (hl : Fits d)
    {strict : Bool} {vs : List PyVal} (h : decode types data strict = .ok (.tuple vs)) (k : Nat) :
    decode (types.take k) data strict = .ok (.tuple (vs.take k)) := by
  obtain ⟨ts, hT⟩ := names_of_decode hd hl h
  obtain ⟨xs, h1, h2⟩ := (decode_reads hT hd hl).1 h
  cases h2
  exact (decode_reads (List.forall₂_take k hT) hd hl).2 ⟨xs.take k, readsArgs_take h1 k, by rw [toPyAll_take]⟩

/-- **C54.**  The encoding of some arguments, decoded with the first `k` types only. -/
theorem C54_encoded [Ext] {types : List TypeStr} {ts : List Ty} (hT : Names types ts)
    {args : PyVal} {vs : List PyVal} (ha : IsListOf args vs) (hg : OnGridAll ts vs)
    {b : Bytes} (hb : Fits b) (h : encode types args = .ok b) (strict : Bool) (k : Nat) :
    ∃ xs, denoteAll ts vs = some xs ∧
      decode (types.take k) (.bytes b) strict = .ok (.tuple ((toPyAll ts xs).take k)) := by
  obtain ⟨xs, hd, rfl⟩ := encode_spec hT ha h hg
  refine ⟨xs, hd, C54_leading (.bytes _) hb ((decode_reads hT (.bytes _) hb).2 ⟨xs, ?_, rfl⟩) k⟩
  exact readsArgs_enc codeHead_ok (supportedAll_valid hT) strict hb (denoteAll_of hd) (List.prefix_refl _)

/-- **C54.**  Static types in two parts: exactly the data decode whose beginning decodes with the first
part and the rest of which decodes with the second, to both values together. -/
theorem C54_static [Ext] {types types' : List TypeStr} {ts ts' : List Ty} (hT : Names types ts)
    (hT' : Names types' ts') (hs : ∀ t ∈ ts, t.dynamic = false) (hs' : ∀ t ∈ ts', t.dynamic = false)
    {d : Bytes} (hl : Fits d) (strict : Bool) (vs : List PyVal) :
    decode (types ++ types') (.bytes d) strict = .ok (.tuple vs) ↔
      ∃ v v', vs = v ++ v' ∧ decode types (.bytes d) strict = .ok (.tuple v) ∧
        decode types' (.bytes (d.drop (headBytes ts))) strict = .ok (.tuple v') := by
  have hs : Ty.anyDynamic ts = false := by rw [anyDynamic_eq]; simpa using hs
  have hs' : Ty.anyDynamic ts' = false := by rw [anyDynamic_eq]; simpa using hs'
  have hl' : Fits (d.drop (headBytes ts)) := by
    simp only [Fits, List.length_drop] at hl ⊢; omega
  have hTT : Names (types ++ types') (ts ++ ts') := List.rel_append hT hT'
  rw [decode_static_strict hTT (by rw [anyDynamic_append, hs, hs']; rfl) (.bytes d) hl,
    decode_static_strict hT hs (.bytes d) hl, decode_static_strict hT' hs' (.bytes _) hl']
  rw [decode_reads hTT (.bytes d) hl]
  constructor
  · rintro ⟨xs, h1, h2⟩
    cases h2
    obtain ⟨ys, zs, rfl, h3, h4⟩ := (readsArgs_static_append hs hs' (supportedAll_valid hT)).1 h1
    exact ⟨toPyAll ts ys, toPyAll ts' zs, toPyAll_append (readsAll_length h3),
      (decode_reads hT (.bytes d) hl).2 ⟨ys, h3, rfl⟩, (decode_reads hT' (.bytes _) hl').2 ⟨zs, h4, rfl⟩⟩
  · rintro ⟨v, v', rfl, h1, h2⟩
    obtain ⟨ys, h3, h4⟩ := (decode_reads hT (.bytes d) hl).1 h1
    obtain ⟨zs, h5, h6⟩ := (decode_reads hT' (.bytes _) hl').1 h2
    cases h4
    cases h6
    exact ⟨ys ++ zs, (readsArgs_static_append hs hs' (supportedAll_valid hT)).2 ⟨ys, zs, rfl, h3, h5⟩,
      by rw [toPyAll_append (readsAll_length h3)]⟩

/-! Not so for the last types, nor for the second part of types some of which are dynamic: their offsets
count from the beginning of the data. -/

section
attribute [local instance] Ex.ext

example (k : Nat) : decode (Ex.types.take k) (.bytes (encodeArgs Ex.tys Ex.vals)) = .ok (.tuple (List.take k
    [.tuple [.tuple [.int (-2), .str (ofChars t!"abc")], .tuple [.int 127, .str []]],
     .bytes [1, 2, 3], .dec (.fin (-12) (-1)), .int 7])) :=
  C54_leading (.bytes _) Ex.fits Ex.decodes k

/-- Data with an offset into the head of the second type: refused with both types, read with the first. -/
example : decode [t!"bytes", t!"uint8"] (.bytes (be32 32 ++ be32 0 ++ be32 0)) = .error .invalidPointer ∧
    decode [t!"bytes"] (.bytes (be32 32 ++ be32 0 ++ be32 0)) = .ok (.tuple [.bytes []]) := by
  decide +kernel

theorem Ex.names_static : Names [t!"(uint8,bool)", t!"bytes3[2]"] [.tuple [.uint 8, .bool], .sized 2 (.bytesM 3)] :=
  .cons ⟨.tuple (s := t!"uint8,bool") (.cons (s := t!"uint8") (s' := t!"bool") (.uint (n := 8) (by decide))
    (.one .bool)), by decide⟩
    (.cons ⟨.sized (s := t!"bytes3") (k := 2) (.bytesM (m := 3) (by decide) (by decide)) (by decide) (by decide),
      by decide⟩ .nil)

example (d : Bytes) (hl : Fits d) (vs : List PyVal) :
    decode ([t!"(uint8,bool)", t!"bytes3[2]"] ++ [t!"bool"]) (.bytes d) = .ok (.tuple vs) ↔
      ∃ v v', vs = v ++ v' ∧ decode [t!"(uint8,bool)", t!"bytes3[2]"] (.bytes d) = .ok (.tuple v) ∧
        decode [t!"bool"] (.bytes (d.drop 128)) = .ok (.tuple v') :=
  C54_static Ex.names_static (.cons ⟨.bool, by decide⟩ .nil) (by decide) (by decide) hl true vs

example : decode [t!"(uint8,bool)", t!"bytes3[2]", t!"bool"] (.bytes
      (be32 7 ++ be32 1 ++ padRight32 [1, 2, 3] ++ padRight32 [4, 5, 6] ++ be32 0)) =
    .ok (.tuple [.tuple [.int 7, .bool true], .tuple [.bytes [1, 2, 3], .bytes [4, 5, 6]], .bool false]) := by
  decide +kernel
end

end EthAbi
