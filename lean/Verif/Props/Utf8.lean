import Verif.Lemmas.Packed
import Verif.Lemmas.TupleStr
import Verif.Lemmas.Utf8Table
import Verif.Props.Breaks
import Verif.Props.Examples
import Verif.Props.Fault

/-!
# C93: text is UTF-8

`Spec/Utf8.lean` has the table.  `utf8Encode?`, which the other specifications use, is the same.
-/
namespace EthAbi
open Spec

/-- **C93** (the table).  What the specifications of the other properties call the UTF-8 of a text is what the table says. -/
theorem C93_table {s : PyStr} {b : Bytes} : utf8Encode? s = some b ↔ Utf8 s b := utf8_iff

/-- **C93** (which texts).  A text has UTF-8 exactly if there is no surrogate in it, and it is at least one byte and at most
four for each character. -/
theorem C93_texts (s : PyStr) : ((∃ b, Utf8 s b) ↔ ∀ c ∈ s, ¬ Surrogate c) ∧
    ∀ b, Utf8 s b → s.length ≤ b.length ∧ b.length ≤ 4 * s.length := ⟨utf8_some, fun _ => utf8_length⟩

/-- **C93** (one to one).  A text has one UTF-8, and bytes are the UTF-8 of one text. -/
theorem C93_one {s s' : PyStr} {b b' : Bytes} (h : Utf8 s b) (h' : Utf8 s' b') : s = s' ↔ b = b' := by
  rw [← utf8_iff] at h h'
  constructor
  · rintro rfl
    rw [h] at h'
    cases h'
    rfl
  · rintro rfl
    have h1 := utf8Decode_encode h
    rw [utf8Decode_encode h'] at h1
    cases h1
    rfl

theorem string_supported [Ext] : Supported t!"string" .string := ⟨.string, by decide⟩

theorem encodeArgs_text {s : PyStr} {u : Bytes} (h : Utf8 s u) :
    encodeArgs [.string] [.text s] = be32 32 ++ be32 u.length ++ padRight32 u := by
  rw [← utf8_iff] at h
  simp [encodeArgs, encAll, enc, h, layout, heads, headSize, tails, Ty.dynamic]

/-- **C93** (encoding).  `encode(['string'], [s])` returns the offset 32, the number of bytes of the UTF-8 of `s`, and these bytes,
with zeros up to a multiple of 32. -/
theorem C93_encode [Ext] {s : PyStr} (hs : s.length ≤ ssizeMax) (b : Bytes) :
    encode [t!"string"] (.list [.str s]) = .ok b ↔ ∃ u, Utf8 s u ∧ b = be32 32 ++ be32 u.length ++ padRight32 u := by
  have hT : Names [t!"string"] [.string] := .cons string_supported .nil
  constructor
  · intro h
    obtain ⟨xs, h1, h2⟩ := encode_spec hT (.list _) h ⟨trivial, trivial⟩
    cases h3 : utf8Encode? s with
    | none => simp [denoteAll, denote, h3] at h1
    | some u =>
      simp [denoteAll, denote, h3] at h1
      subst h1
      exact ⟨u, utf8_iff.1 h3, by rw [h2, encodeArgs_text (utf8_iff.1 h3)]⟩
  · rintro ⟨u, h1, rfl⟩
    rw [← encodeArgs_text h1]
    refine encode_of hT (.list _) (xs := [.text s]) ?_ ?_
    · simp [denoteAll, denote, utf8_iff.2 h1]
    · have := utf8_length h1
      rw [encodeArgs_text h1]
      simp only [List.length_append, be32, List.length_map, List.length_range, padRight32, List.length_replicate]
      unfold ssizeMax at hs
      omega

/-- **C93** (encoding, packed).  `encode_packed(['string'], [s])` returns the UTF-8 of `s`. -/
theorem C93_packed [Ext] (s : PyStr) (b : Bytes) : encodePacked [t!"string"] (.list [.str s]) = .ok b ↔ Utf8 s b := by
  refine (packed_one string_supported _ _).trans ?_
  rw [← utf8_iff]
  show packedTextStringEncoder.call (.str s) = .ok b ↔ _
  simp only [packedTextStringEncoder, textValidate, textEncodeFn, asText?, utf8Encode]
  cases utf8Encode? s <;> simp

/-- **C93** (surrogates).  For a text with a surrogate `UnicodeEncodeError` is raised, and for no other. -/
theorem C93_surrogates [Ext] {s : PyStr} (hs : s.length ≤ ssizeMax) :
    (encode [t!"string"] (.list [.str s]) = .error .unicodeEncodeError ↔ ∃ c ∈ s, Surrogate c) ∧
    (encodePacked [t!"string"] (.list [.str s]) = .error .unicodeEncodeError ↔ ∃ c ∈ s, Surrogate c) := by
  have hn : (∃ c ∈ s, Surrogate c) ↔ ¬ NoSurrogatesAll [.str s] := by
    have := (utf8_some (s := s)).not
    simp only [not_forall, not_not, exists_prop] at this
    rw [← this]
    simp [NoSurrogatesAll, NoSurrogates, Option.isSome_iff_exists, utf8_iff]
  have hT : Names [t!"string"] [.string] := .cons string_supported .nil
  have hf : fault (.tuple [.string]) (.list [.str s]) = none := by simp [fault, asListLike?, faultAny, leafFault]
  have key := C73_encode hT (.list [.str s]) (by simp [weight, weights]; unfold ssizeMax at hs; omega)
  have k1 := key.2.1 hf
  have k2 := key.2.2 hf
  rw [hn]
  by_cases h : NoSurrogatesAll [.str s]
  · obtain ⟨⟨b, h1⟩, b', h2⟩ := k2 h
    rw [h1, h2]
    simp [h]
  · simp [h, k1 h]

/-- **C93** (decoding).  `decode(['string'], data)` returns the text of which the bytes that stand there are the UTF-8: the offset
`off` points at or behind byte 32 and into the data, and there are the number of bytes, the bytes and zeros up to a multiple of
32. -/
theorem C93_decode [Ext] {data : PyVal} {d : Bytes} (hd : IsBytes data d) (hl : Fits d) (v : PyVal) :
    decode [t!"string"] data true = .ok v ↔
      ∃ off u s, 32 ≤ off ∧ off < d.length ∧ At d 0 (be32 off) ∧ At d off (be32 u.length) ∧ At d (off + 32) (padRight32 u) ∧
        Utf8 s u ∧ v = .tuple [.str s] := by
  have hT : Names [t!"string"] [.string] := .cons string_supported .nil
  rw [C77_accepts hT hd hl]
  have two : ssizeMax < 2 ^ 256 := by norm_num [ssizeMax]
  have hz : d.length < 2 ^ 256 := lt_of_le_of_lt hl two
  constructor
  · rintro ⟨xs, h, rfl⟩
    match xs, h with
    | [.text s], h =>
      simp only [ReadsArgs, ReadsAll, ReadsItem, Reads, Ty.dynamic, countedHead, countedWords, ReadsBytes, if_true,
        List.map_cons, List.map_nil, List.sum_cons, List.sum_nil, Nat.zero_add] at h
      obtain ⟨⟨off, _, h1, h2, h3, u, h4, h5, h6⟩, _⟩ := h
      exact ⟨off, u, s, by omega, h3, h1, h5, h6, utf8_iff.1 h4, rfl⟩
    | [.num _], h => simp [ReadsArgs, ReadsAll, ReadsItem, Reads, Ty.dynamic, Val.Of] at h
    | [.raw _], h => simp [ReadsArgs, ReadsAll, ReadsItem, Reads, Ty.dynamic, Val.Of] at h
    | [.seq _], h => simp [ReadsArgs, ReadsAll, ReadsItem, Reads, Ty.dynamic, Val.Of] at h
    | [], h => exact absurd h (by simp [ReadsArgs, ReadsAll])
    | _ :: _ :: _, h => exact absurd h.2 (by simp [ReadsAll])
  · rintro ⟨off, u, s, h1, h2, h3, h4, h5, h6, rfl⟩
    refine ⟨[.text s], ?_, rfl⟩
    simp only [ReadsArgs, ReadsAll, ReadsItem, Reads, Ty.dynamic, countedHead, countedWords, ReadsBytes, if_true,
      List.map_cons, List.map_nil, List.sum_cons, List.sum_nil, Nat.zero_add]
    exact ⟨⟨off, by omega, h3, by omega, h2, u, utf8_iff.2 h6, h4, h5⟩, trivial⟩

/-- **C93** (what is not text).  `decode(['string'], data)` raises `UnicodeDecodeError` exactly if such bytes stand there that are
the UTF-8 of no text. -/
theorem C93_not_text [Ext] {data : PyVal} {d : Bytes} (hd : IsBytes data d) (hl : Fits d) :
    decode [t!"string"] data true = .error .unicodeDecodeError ↔
      ∃ off u, 32 ≤ off ∧ off < d.length ∧ At d 0 (be32 off) ∧ At d off (be32 u.length) ∧ At d (off + 32) (padRight32 u) ∧
        ∀ s, ¬ Utf8 s u := by
  have hT : Names [t!"string"] [.string] := .cons string_supported .nil
  rw [C77_refuses hT hd hl]
  have two : ssizeMax < 2 ^ 256 := by norm_num [ssizeMax]
  have hz : d.length < 2 ^ 256 := lt_of_le_of_lt hl two
  have only : ∀ w : Trouble, w.exc = .unicodeDecodeError ↔ w = .notText := by
    intro w
    cases w <;> simp [Trouble.exc]
  simp only [only, exists_eq_right, BrokenArgs, ComponentsBreak, components, HeadsBreak, HeadsFine, TailsBreak,
    Component.HeadBreaks, Component.HeadFine, Broken, Ty.dynamic, if_true, WordMissing, countedHead, countedWords,
    List.map_cons, List.map_nil, List.sum_cons, List.sum_nil, ReadsBytes, WordIs, reduceCtorEq, and_false, or_false,
    and_true, true_and, false_or, exists_false, Nat.zero_add, true_implies]
  constructor
  · rintro ⟨⟨off, ⟨h1, h2⟩, h3, h4⟩, off', ⟨h5, h6⟩, h7 | ⟨u, ⟨h8, h9⟩, h10⟩⟩
    · generalize hw : Trouble.notText = w at h7
      cases h7 with
      | noLength h => rw [← hw] at h; cases h.2
      | _ => cases hw
    · have : off = off' := at_be32_inj h1 h5 h2 h6
      subst this
      exact ⟨off, u, by omega, h4, h2, h8, h9, fun s hs => h10 s (utf8_iff.2 hs)⟩
  · rintro ⟨off, u, h1, h2, h3, h4, h5, h6⟩
    exact ⟨⟨off, ⟨by omega, h3⟩, by omega, h2⟩, off, ⟨by omega, h3⟩, Or.inr ⟨u, ⟨h4, h5⟩, fun s hs => h6 s (utf8_iff.1 hs)⟩⟩

/-- "aé€😀": one, two, three and four bytes. -/
example : Utf8 [⟨0x61, by decide⟩, ⟨0xE9, by decide⟩, ⟨0x20AC, by decide⟩, ⟨0x1F600, by decide⟩]
    [0x61, 0xC3, 0xA9, 0xE2, 0x82, 0xAC, 0xF0, 0x9F, 0x98, 0x80] := by
  rw [← C93_table]
  decide +kernel

/-- It is encoded with its ten bytes. -/
example : @encode Ex.ext [t!"string"] (.list [.str [⟨0x61, by decide⟩, ⟨0xE9, by decide⟩, ⟨0x20AC, by decide⟩,
      ⟨0x1F600, by decide⟩]]) =
    .ok (List.replicate 31 0 ++ [32] ++ List.replicate 31 0 ++ [10] ++
      [0x61, 0xC3, 0xA9, 0xE2, 0x82, 0xAC, 0xF0, 0x9F, 0x98, 0x80] ++ List.replicate 22 0) := by
  decide +kernel

/-- A surrogate is refused, and so are the three bytes that it would have, and a `/` in two bytes. -/
example : (∃ c ∈ ([⟨0x61, by decide⟩, ⟨0xD800, by decide⟩] : PyStr), Surrogate c) ∧
    @encode Ex.ext [t!"string"] (.list [.str [⟨0x61, by decide⟩, ⟨0xD800, by decide⟩]]) = .error .unicodeEncodeError ∧
    @decode Ex.ext [t!"string"] (.bytes (List.replicate 31 0 ++ [32] ++ List.replicate 31 0 ++ [3] ++
      [0xED, 0xA0, 0x80] ++ List.replicate 29 0)) true = .error .unicodeDecodeError ∧
    @decode Ex.ext [t!"string"] (.bytes (List.replicate 31 0 ++ [32] ++ List.replicate 31 0 ++ [2] ++
      [0xC0, 0xAF] ++ List.replicate 30 0)) true = .error .unicodeDecodeError := by
  refine ⟨⟨⟨0xD800, by decide⟩, by simp, by simp [Surrogate]⟩, ?_⟩
  decide +kernel

end EthAbi
