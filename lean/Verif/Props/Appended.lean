import Verif.Lemmas.Refilled
import Verif.Props.RoundTrip

/-!
# What `decode` makes of any encoding, with or without something after it (C01, C11)

The theorems of `Verif/Props/RoundTrip.lean` on C01 and C11 are about encodings that can be decoded.  Arguments for
fixed-point types that are not on the grid may be encoded as something that cannot be decoded; these theorems include them.
-/
namespace EthAbi
open Spec

/-- What `decode` makes of an encoding is determined by the values of the types with `bytes32` for the fixed-point types. -/
theorem decode_encoded [Ext] {types : List TypeStr} {ts : List Ty} (hT : Names types ts) {args : PyVal} {b : Bytes}
    (h : encode types args = .ok b) : ∃ ys, ∀ junk : Bytes, Fits (b ++ junk) → ∀ strict : Bool,
      decode types (.bytes (b ++ junk)) strict = (refillAll ts ys >>= fun xs => .ok (.tuple (toPyAll ts xs))) := by
  obtain ⟨ys, hys, hb⟩ := shadow_encode hT h
  refine ⟨ys, fun junk hl strict => ?_⟩
  have hv := shadows_valid (supportedAll_valid hT)
  have h1 : ReadsArgs codeHead strict (shadows ts) (b ++ junk) ys :=
    readsArgs_enc codeHead_ok hv strict hl hys (by
      show encodeArgs (shadows ts) ys <+: b ++ junk
      rw [← hb]; exact List.prefix_append _ _)
  rw [decode_eq hT rfl hl, posTop_refill ((posTop_iff hv strict hl).2 h1)]

/-- **C11** (every encoding).  Whatever `encode` returned, and whether or not it can be decoded: with `strict=True` and with
`strict=False`, `decode` does the same if something is appended. -/
theorem C11_encoded [Ext] {types : List TypeStr} {args : PyVal} {b junk : Bytes} (h : encode types args = .ok b)
    (hl : Fits (b ++ junk)) (strict : Bool) :
    decode types (.bytes (b ++ junk)) strict = decode types (.bytes b) strict := by
  obtain ⟨ts, _, hT, _⟩ := encode_ok (pk := false) h
  obtain ⟨ys, h1⟩ := decode_encoded hT h
  have hb : Fits (b ++ []) := by simp only [Fits, List.length_append, List.length_nil] at hl ⊢; omega
  rw [h1 junk hl strict]
  have := h1 [] hb strict
  rw [List.append_nil] at this
  rw [this]

/-- **C01** (every encoding).  `decode` of what `encode` returned gives a tuple, or raises `NonEmptyPaddingBytes`; and does the
same with `strict=False`. -/
theorem C01_outcome [Ext] {types : List TypeStr} {args : PyVal} {b : Bytes} (h : encode types args = .ok b) (hb : Fits b) :
    ((∃ vs, decode types (.bytes b) = .ok (.tuple vs)) ∨ decode types (.bytes b) = .error .nonEmptyPaddingBytes) ∧
      decode types (.bytes b) false = decode types (.bytes b) := by
  obtain ⟨ts, _, hT, _⟩ := encode_ok (pk := false) h
  obtain ⟨ys, h1⟩ := decode_encoded hT h
  have h2 : ∀ strict, decode types (.bytes b) strict =
      (refillAll ts ys >>= fun xs => .ok (.tuple (toPyAll ts xs))) := fun strict => by
    have := h1 [] (by rwa [List.append_nil]) strict
    rwa [List.append_nil] at this
  refine ⟨?_, (h2 false).trans (h2 true).symm⟩
  rw [h2 true]
  rcases refillAll_tame (fun t _ => refill_tame t) ys with ⟨xs, hx⟩ | hx
  · exact .inl ⟨_, by rw [hx]; rfl⟩
  · exact .inr (by rw [hx]; rfl)

/-! ## The hypotheses are met -/

-- An encoding that cannot be decoded, with two bytes after it.
example [Ext] : decode [t!"fixed8x1"] (.bytes (List.replicate 31 0xff ++ [0] ++ [1, 2])) =
      decode [t!"fixed8x1"] (.bytes (List.replicate 31 0xff ++ [0])) := by
  have hT : Names [t!"fixed8x1"] [.fixed 8 1] :=
    .cons ⟨.fixed (m := 8) (n := 1) (by decide) (by decide) (by decide), by decide⟩ .nil
  have h1 : encode [t!"fixed8x1"] (.list [.dec (.fin (-5) (-2))]) = .ok (List.replicate 31 0xff ++ [0]) := by
    have := encode_eq false hT (args := .list [.dec (.fin (-5) (-2))]) rfl
    exact this.trans (sfixed_one (m := 8) (n := 1) rfl (by decide +kernel) (by decide +kernel))
  exact C11_encoded h1 (by decide +kernel) true

example : letI := Ex.ext
    decode Ex.types (.bytes (encodeArgs Ex.tys Ex.vals ++ [1, 2])) false =
      decode Ex.types (.bytes (encodeArgs Ex.tys Ex.vals)) false :=
  letI := Ex.ext
  C11_encoded Ex.encodes (by decide +kernel) false

end EthAbi
