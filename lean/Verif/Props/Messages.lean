import Verif.Lemmas.BytesText
import Verif.Lemmas.Texts
import Verif.Props.Breaks

/-!
# C78: what the exceptions of `decode` say

`decodeSays types d strict` (`Model/Messages.lean`) is the text of the exception that `decode` raises, if it is one of the
library's.  `Trouble.text` (`Spec/Messages.lean`) is the text for each thing that can be wrong.
-/
namespace EthAbi
open Spec

/-- **C78** (the text).  An exception of `decode` says what is wrong with the data. -/
theorem C78_says [Ext] {types : List TypeStr} {ts : List Ty} (hT : Names types ts) {d : Bytes} (hl : Fits d)
    {strict : Bool} {s : List Char} :
    decodeSays types d strict = some s ↔ ∃ w, BrokenArgs strict ts d w ∧ w.text = some s := by
  rw [Saying.decodeSays_eq hT hl]
  simp only [← posTop_breaks (supportedAll_valid hT) strict hl]
  cases hp : posTopT strict ts d with
  | ok x => simp
  | error w => simp

/-- **C78** (when).  There is a text of the library exactly if `decode` raises one of its three exceptions; whenever `decode`
raises anything else, it is Python's `OverflowError` or `UnicodeDecodeError`. -/
theorem C78_when [Ext] {types : List TypeStr} {ts : List Ty} (hT : Names types ts) {data : PyVal} {d : Bytes}
    (hd : IsBytes data d) (hl : Fits d) {strict : Bool} :
    (∃ s, decodeSays types d strict = some s) ↔
      decode types data strict = .error .insufficientDataBytes ∨ decode types data strict = .error .invalidPointer ∨
      decode types data strict = .error .nonEmptyPaddingBytes := by
  simp only [C77_refuses hT hd hl, C78_says hT hl]
  constructor
  · rintro ⟨s, w, h, hs⟩
    cases w with
    | noWord _ => exact .inl ⟨_, h, rfl⟩
    | cut _ _ => exact .inl ⟨_, h, rfl⟩
    | pointer _ _ => exact .inr (.inl ⟨_, h, rfl⟩)
    | padding _ => exact .inr (.inr ⟨_, h, rfl⟩)
    | boolean _ => exact .inr (.inr ⟨_, h, rfl⟩)
    | tooLong => cases hs
    | notText => cases hs
  · rintro (⟨w, h, he⟩ | ⟨w, h, he⟩ | ⟨w, h, he⟩) <;> cases w <;>
      first
      | exact ⟨_, _, h, rfl⟩
      | cases he

/-- **C78** (nothing is lost).  Whoever reads the text knows what was wrong: two different things never have the same
text. -/
theorem C78_tells [Ext] {types types' : List TypeStr} {ts ts' : List Ty} (hT : Names types ts) (hT' : Names types' ts')
    {d d' : Bytes} (hl : Fits d) (hl' : Fits d') {strict strict' : Bool} {s : List Char}
    (h : decodeSays types d strict = some s) (h' : decodeSays types' d' strict' = some s) {w w' : Trouble}
    (hw : BrokenArgs strict ts d w) (hw' : BrokenArgs strict' ts' d' w') : w = w' := by
  obtain ⟨v, hv, hvs⟩ := (C78_says hT hl).1 h
  obtain ⟨v', hv', hvs'⟩ := (C78_says hT' hl').1 h'
  rw [← posTop_breaks (supportedAll_valid hT) strict hl] at hw hv
  rw [← posTop_breaks (supportedAll_valid hT') strict' hl'] at hw' hv'
  rw [hw] at hv
  rw [hw'] at hv'
  injection hv with hv
  injection hv' with hv'
  rw [hv, hv']
  exact text_inj hvs hvs'

/-- What the parts of a text are in the data. -/
def Tells (d : Bytes) : Trouble → Prop
  | .noWord got => got < 32 ∧ got ≤ d.length
  | .cut asked got => got < asked ∧ 32 ∣ asked ∧ got ≤ d.length
  | .pointer _ loc => loc + 32 ≤ d.length
  | .padding b => b.length ≤ 32 ∧ b <:+: d
  | .boolean b => ∃ x : UInt8, b = [x] ∧ x ≠ 0 ∧ x ≠ 1 ∧ x ∈ d
  | _ => True

theorem slice_infix (d : Bytes) (p n : Nat) : (d.drop p).take n <:+: d :=
  (List.take_prefix _ _).isInfix.trans (List.drop_suffix _ _).isInfix

theorem wordIs_in {d : Bytes} {q off : Nat} (h : WordIs d q off) : q + 32 ≤ d.length := by
  have := at_length h.2
  rw [be32_length] at this
  exact this (by decide)

theorem brokenArgs_tells {strict : Bool} {ts : List Ty} {d : Bytes} {w : Trouble} (h : BrokenArgs strict ts d w) :
    Tells d w := by
  refine brokenArgs_inv (Q := Tells d) ?_ ?_ ?_ trivial ?_ h
  · intro p hp
    simp only [NoWord] at hp
    exact ⟨by omega, by omega⟩
  · intro k q off hw
    exact wordIs_in hw
  · intro strict p w hb
    cases hb with
    | noLength hw =>
      obtain ⟨hp, rfl⟩ := hw
      simp only [NoWord] at hp
      exact ⟨by omega, by omega⟩
    | huge _ _ => trivial
    | @cut n _ hw _ hc => exact ⟨by have := wordIs_in hw; omega, ⟨_, Nat.mul_comm _ _⟩, by omega⟩
    | @padding n q x _ _ _ _ _ _ _ _ => exact ⟨by simp; omega, slice_infix _ _ _⟩
  · intro t _ u _ hu p hp _
    simp only [NoWord, Nat.not_lt] at hp
    have hin := slice_infix d p 32
    have hlen : ((d.drop p).take 32).length = 32 := by simp; omega
    generalize (d.drop p).take 32 = word at hin hlen
    have htake : ∀ k, Tells d (.padding (word.take k)) := fun k =>
      ⟨by simp; omega, (List.take_prefix _ _).isInfix.trans hin⟩
    cases u <;> simp only [Ty.isLeaf, Bool.false_eq_true] at hu
    case uint => exact htake _
    case int => exact htake _
    case ufixed => exact htake _
    case fixed => exact htake _
    case address => exact htake _
    case bytesM m => exact ⟨by simp; omega, (List.drop_suffix _ _).isInfix.trans hin⟩
    case bool =>
      simp only [wordTrouble]
      split
      · exact htake _
      · next hne =>
        have h1 : (word.drop 31).length = 1 := by simp [hlen]
        obtain ⟨x, hx⟩ := List.length_eq_one_iff.1 h1
        rw [hx] at hne ⊢
        push Not at hne
        refine ⟨x, rfl, fun h => hne.1 (by rw [h]), fun h => hne.2 (by rw [h]), ?_⟩
        exact hin.subset (List.mem_of_mem_drop (by rw [hx]; simp : x ∈ word.drop 31))

/-- **C78** (how bytes are shown).  What `Trouble.text` and the messages call `repr(b)` is what `Spec/BytesText.lean` says. -/
theorem C78_repr {b : Bytes} {s : List Char} : BytesText b s ↔ s = bytesRepr b := bytesText_iff

/-- **C78** (what the numbers and bytes are).  The counts are what was asked for and what was there, which is less; the
location is one of a whole word of the data; the byte of a boolean is the wrong one. -/
theorem C78_means [Ext] {types : List TypeStr} {ts : List Ty} (hT : Names types ts) {d : Bytes} (hl : Fits d)
    {strict : Bool} {s : List Char} (h : decodeSays types d strict = some s) :
    (∃ got, got < 32 ∧ got ≤ d.length ∧
      s = t!"Tried to read 32 bytes, only got " ++ natDigits got ++ t!" bytes.") ∨
    (∃ asked got, got < asked ∧ 32 ∣ asked ∧ got ≤ d.length ∧
      s = t!"Tried to read " ++ natDigits asked ++ t!" bytes, only got " ++ natDigits got ++ t!" bytes") ∨
    (∃ c : Container, ∃ loc, loc + 32 ≤ d.length ∧
      s = t!"Invalid pointer in " ++ c.name ++ t!" at location " ++ natDigits loc ++ t!" in payload") ∨
    (∃ b r, b.length ≤ 32 ∧ b <:+: d ∧ BytesText b r ∧ s = t!"Padding bytes were not empty: " ++ r) ∨
    (∃ (x : UInt8) (r : List Char), x ≠ 0 ∧ x ≠ 1 ∧ x ∈ d ∧ BytesText [x] r ∧
      s = t!"Boolean must be either 0x0 or 0x1.  Got: " ++ r) := by
  obtain ⟨w, hw, hs⟩ := (C78_says hT hl).1 h
  have ht := brokenArgs_tells hw
  cases w with
  | noWord got => exact .inl ⟨got, ht.1, ht.2, (Option.some.inj hs).symm⟩
  | cut asked got => exact .inr (.inl ⟨asked, got, ht.1, ht.2.1, ht.2.2, (Option.some.inj hs).symm⟩)
  | pointer c loc => exact .inr (.inr (.inl ⟨c, loc, ht, (Option.some.inj hs).symm⟩))
  | padding b => exact .inr (.inr (.inr (.inl ⟨b, _, ht.1, ht.2, C78_repr.2 rfl, (Option.some.inj hs).symm⟩)))
  | boolean b =>
    obtain ⟨x, rfl, h1, h2, h3⟩ := ht
    exact .inr (.inr (.inr (.inr ⟨x, _, h1, h2, h3, C78_repr.2 rfl, (Option.some.inj hs).symm⟩)))
  | tooLong => cases hs
  | notText => cases hs

/-- **C78** (padding that is not empty).  If none of the types is signed, the bytes that a text calls not empty are not all
zeros. -/
theorem C78_padding_partial [Ext] {types : List TypeStr} {ts : List Ty} (hT : Names types ts) {d : Bytes} (hl : Fits d)
    {strict : Bool} (hu : ∀ t ∈ ts, ∀ u, Occurs u t → ¬ Signed u) {b : Bytes} {r : List Char} (hr : BytesText b r)
    (h : decodeSays types d strict = some (t!"Padding bytes were not empty: " ++ r)) : ∃ x ∈ b, x ≠ 0 := by
  cases C78_repr.1 hr
  obtain ⟨w, hw, hs⟩ := (C78_says hT hl).1 h
  have hwb : w = .padding b := text_inj hs rfl
  refine brokenArgs_inv (Q := fun w => ∀ b, w = .padding b → ∃ x ∈ b, x ≠ 0) ?_ ?_ ?_ ?_ ?_ hw b hwb
  · intro _ _ _ h; cases h
  · intro _ _ _ _ _ h; cases h
  · intro strict p w hb b hwb
    cases hb with
    | noLength h => rw [hwb] at h; cases h.2
    | huge _ _ => cases hwb
    | cut _ _ _ _ => cases hwb
    | @padding n q x _ _ _ _ h1 h2 h3 h4 =>
      injection hwb with hwb
      refine ⟨x, ?_, h4⟩
      rw [← hwb, List.mem_iff_getElem?]
      refine ⟨q - (p + 32 + n), ?_⟩
      rw [List.getElem?_take, if_pos (by omega), List.getElem?_drop, ← h3]
      congr 1
      omega
  · intro b h; cases h
  · intro t ht u hm hleaf p hp hno b hb
    simp only [NoWord, Nat.not_lt] at hp
    refine wordTrouble_nonzero hleaf (occurs_valid hm ?_) (hu t ht u hm) (by simp; omega) ?_ hb
    · exact supportedAll_valid hT t ht
    · intro x hx he
      refine hno x hx ?_
      rw [At, he]
      exact List.take_prefix _ _

/-- **C78** (false for signed types).  A negative number with zeros in front of it: the text calls the zeros not empty. -/
theorem C78_zeros : letI := Ex.ext
    decodeSays [t!"int8"] (be32 255) true =
      some (t!"Padding bytes were not empty: " ++ bytesRepr (List.replicate 31 0)) := by decide +kernel

/-! ## Cases -/

/-- A single quote, a tab, and a byte that is not ASCII. -/
example : BytesText [97, 39, 9, 200] t!"b\"a'\\t\\xc8\"" := C78_repr.2 (by decide)

/-- A tuple with a bad offset in its second component. -/
example : letI := Ex.ext
    decodeSays [t!"uint8", t!"bytes"] (be32 1 ++ be32 1000) true =
      some t!"Invalid pointer in tuple at location 32 in payload" := by decide +kernel

/-- An array with a bad offset. -/
example : letI := Ex.ext
    decodeSays [t!"bytes[]"] (be32 32 ++ be32 2 ++ be32 64 ++ be32 0 ++ be32 0) true =
      some t!"Invalid pointer in array at location 96 in payload" := by decide +kernel

/-- A byte string that is cut. -/
example : letI := Ex.ext
    decodeSays [t!"bytes"] (be32 32 ++ be32 33 ++ List.replicate 40 7) true =
      some t!"Tried to read 64 bytes, only got 40 bytes" := by decide +kernel

/-- A missing word. -/
example : letI := Ex.ext
    decodeSays [t!"uint8", t!"uint8"] (be32 32 ++ [1, 2, 3]) true =
      some t!"Tried to read 32 bytes, only got 3 bytes." := by decide +kernel

/-- Padding that is not empty, and a boolean that is none. -/
example : letI := Ex.ext
    decodeSays [t!"bytes30"] (List.replicate 31 0 ++ [39]) true =
      some t!"Padding bytes were not empty: b\"\\x00'\"" ∧
    decodeSays [t!"bool"] (be32 2) true =
      some t!"Boolean must be either 0x0 or 0x1.  Got: b'\\x02'" := by decide +kernel

/-- A text that is not UTF-8: the exception is Python's. -/
example : letI := Ex.ext
    decodeSays [t!"string"] (be32 32 ++ be32 1 ++ [255] ++ List.replicate 31 0) true = none ∧
    decode [t!"string"] (.bytes (be32 32 ++ be32 1 ++ [255] ++ List.replicate 31 0)) = .error .unicodeDecodeError := by
  decide +kernel

/-- The types of `C78_padding_partial`. -/
example : ∀ t ∈ [Ty.tuple [.bytes, .uint 8]], ∀ u, Occurs u t → ¬ Signed u := by
  intro t ht u hm
  simp only [List.mem_singleton] at ht
  subst ht
  cases hm with
  | self => exact id
  | tuple hm h =>
    simp only [List.mem_cons, List.not_mem_nil, or_false] at hm
    rcases hm with rfl | rfl <;> cases h <;> exact id

end EthAbi
