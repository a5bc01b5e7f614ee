import Verif.Lemmas.Final
import Verif.Props.RoundTrip
import Verif.Props.Conformance

/-! # Which errors of `decode` more data may cure (C74) -/
namespace EthAbi
open Spec

/-- **C74** (final errors).  An error of a strict `decode` other than `InsufficientDataBytes` and `InvalidPointer` stays the
same error whatever is appended to the data. -/
theorem C74_final [Ext] {types : List TypeStr} {ts : List Ty} (hT : Names types ts) {d more : Bytes}
    (hl : Fits (d ++ more)) {e : Exc} (h : decode types (.bytes d) true = .error e)
    (h1 : e ≠ .insufficientDataBytes) (h2 : e ≠ .invalidPointer) :
    decode types (.bytes (d ++ more)) true = .error e := by
  have hd : Fits d := by simp only [Fits, List.length_append] at hl ⊢; omega
  rw [decode_eq hT rfl hd] at h
  rw [decode_eq hT rfl hl]
  exact ((posTop_grow ts d more).bind fun _ _ => .refl _).2 e h fun hs => hs.elim h1 h2

/-- **C74** (what came before).  If data can be decoded, every beginning of it decodes to the same value or raises
`InsufficientDataBytes` or `InvalidPointer`. -/
theorem C74_beginning [Ext] {types : List TypeStr} {d more : Bytes} (hl : Fits (d ++ more)) {v : PyVal}
    (h : decode types (.bytes (d ++ more)) true = .ok v) :
    decode types (.bytes d) true = .ok v ∨ decode types (.bytes d) true = .error .insufficientDataBytes ∨
      decode types (.bytes d) true = .error .invalidPointer := by
  obtain ⟨ts, hT⟩ := names_of_decode (.bytes _) hl h
  cases hr : decode types (.bytes d) true with
  | ok w =>
    rw [C11_trailing hl hr] at h
    exact .inl h
  | error e =>
    by_cases h1 : e = .insufficientDataBytes
    · exact .inr (.inl (by rw [h1]))
    by_cases h2 : e = .invalidPointer
    · exact .inr (.inr (by rw [h2]))
    · rw [C74_final hT hl hr h1 h2] at h
      cases h

/-- **C74** (encodings that were cut off).  What is left when the end of an encoding is missing raises
`InsufficientDataBytes` or `InvalidPointer`. -/
theorem C74_cut [Ext] {types : List TypeStr} {ts : List Ty} (hT : Names types ts) {args : PyVal} {vs : List PyVal}
    (ha : IsListOf args vs) (hg : OnGridAll ts vs) {d cut : Bytes} (hl : Fits (d ++ cut))
    (h : encode types args = .ok (d ++ cut)) (hcut : cut ≠ []) :
    decode types (.bytes d) true = .error .insufficientDataBytes ∨
      decode types (.bytes d) true = .error .invalidPointer := by
  obtain ⟨xs, _, hd⟩ := C01_roundTrip_partial hT ha hg hl h true
  exact (C74_beginning hl hd).resolve_left (C20_no_prefix hl h hcut _)

/-- **C74** (static types).  If all types are static, `decode` raises `InsufficientDataBytes` only if the data is shorter than
the types say, it never raises `InvalidPointer`, and the only other error is `NonEmptyPaddingBytes`. -/
theorem C74_static [Ext] {types : List TypeStr} {ts : List Ty} (hT : Names types ts)
    (hs : ∀ t ∈ ts, t.dynamic = false) {data : PyVal} {d : Bytes} (hd : IsBytes data d) (hl : Fits d) (strict : Bool)
    {e : Exc} (h : decode types data strict = .error e) :
    e = .nonEmptyPaddingBytes ∨ (e = .insufficientDataBytes ∧ d.length < Ty.sizes ts) := by
  rw [decode_eq hT (isBytes_iff.1 hd) hl, bind_eq_error] at h
  rcases h with h | ⟨_, _, h⟩
  · exact posTop_static (by rw [anyDynamic_eq]; simpa using hs) h
  · cases h

/-- **C74** (static types, cut off).  If all types are static and the data can be decoded, every beginning of it that is
shorter than the types say raises `InsufficientDataBytes`. -/
theorem C74_static_cut [Ext] {types : List TypeStr} {ts : List Ty} (hT : Names types ts)
    (hs : ∀ t ∈ ts, t.dynamic = false) {d more : Bytes} (hl : Fits (d ++ more)) {v : PyVal}
    (h : decode types (.bytes (d ++ more)) true = .ok v) (hlen : d.length < Ty.sizes ts) :
    decode types (.bytes d) true = .error .insufficientDataBytes := by
  have hd : Fits d := by simp only [Fits, List.length_append] at hl ⊢; omega
  rcases C74_beginning hl h with h1 | h1 | h1
  · obtain ⟨b, hb, hp⟩ := C14_static_canonical hT hs (.bytes d) hd h1
    have := hp.length_le
    rw [C03_static_length hT hs hb] at this
    omega
  · exact h1
  · rcases C74_static hT hs (.bytes d) hd true h1 with h2 | ⟨h2, _⟩ <;> cases h2

/-- A word that is no `bool`. -/
def Ex.notBool : Bytes := be32 2

example [Ext] (more : Bytes) (hl : Fits (Ex.notBool ++ more)) :
    decode [t!"bool", t!"bytes"] (.bytes (Ex.notBool ++ more)) true = .error .nonEmptyPaddingBytes := by
  have hT : Names [t!"bool", t!"bytes"] [.bool, .bytes] :=
    .cons ⟨.bool, by decide +kernel⟩ (.cons ⟨.bytes, by decide +kernel⟩ .nil)
  refine C74_final hT hl ?_ (by decide) (by decide)
  rw [decode_eq hT rfl (by decide +kernel)]
  decide +kernel

/-- The encoding of `b'abc'` cut off after the offset and after the length. -/
example : letI := Ex.ext
    decode [t!"bytes"] (.bytes (be32 32)) true = .error .invalidPointer ∧
    decode [t!"bytes"] (.bytes (be32 32 ++ be32 3)) true = .error .insufficientDataBytes ∧
    decode [t!"bytes"] (.bytes (be32 32 ++ be32 3 ++ [97, 98, 99])) true = .error .insufficientDataBytes ∧
    encode [t!"bytes"] (.list [.bytes [97, 98, 99]]) =
      .ok (be32 32 ++ be32 3 ++ [97, 98, 99] ++ List.replicate 29 0) := by decide +kernel

example : letI := Ex.ext
    decode [t!"uint8[2]"] (.bytes (be32 1 ++ [0])) true = .error .insufficientDataBytes :=
  letI := Ex.ext
  C74_static_cut (ts := [.sized 2 (.uint 8)])
    (.cons ⟨.sized (k := 2) (s := t!"uint8") (.uint (n := 8) (by decide)) (by decide) (by decide), by decide⟩ .nil)
    (by decide +kernel) (more := List.replicate 30 0 ++ [5]) (v := .tuple [.tuple [.int 1, .int 5]])
    (by decide +kernel) (by decide +kernel) (by decide +kernel)

/-- With `strict=False` more data may cure an `UnicodeDecodeError`: the two bytes of `é` are cut apart. -/
example : letI := Ex.ext
    decode [t!"string"] (.bytes (be32 32 ++ be32 2 ++ [0xc3])) false = .error .unicodeDecodeError ∧
    decode [t!"string"] (.bytes (be32 32 ++ be32 2 ++ [0xc3, 0xa9])) false = .ok (.tuple [.str (ofChars ['é'])]) := by
  decide +kernel

end EthAbi
