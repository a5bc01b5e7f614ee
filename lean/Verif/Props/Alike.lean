import Verif.Lemmas.Alike
import Verif.Props.Examples

/-! # C53: the form of a value does not matter -/
namespace EthAbi
open Spec

/-! ## C53 -/

/-- **C53.**  Arguments that differ in form only: `encode` returns the same bytes or raises the same
exception.  If an argument holds an integer of too many digits, both calls may raise different exceptions. -/
theorem C53_encode [Ext] {types : List TypeStr} {ts : List Ty} (hT : Names types ts) {args args' : PyVal}
    {vs vs' : List PyVal} (ha : IsListOf args vs) (ha' : IsListOf args' vs') (h : AlikeAll ts vs vs') :
    encode types args = encode types args' ∨
      ((∃ e, encode types args = .error e) ∧ (∃ e, encode types args' = .error e) ∧
        ¬ (PrintableAll vs ∧ PrintableAll vs')) := by
  have hv := Ty.allValid_iff.2 (supportedAll_valid hT)
  have h1 : encode types args = _ := encode_eq false hT (isListOf_iff.1 ha)
  have h2 : encode types args' = _ := encode_eq false hT (isListOf_iff.1 ha')
  rw [h1, h2]
  replace ha := isSeqOf_iff.2 (isListOf_like ha)
  replace ha' := isSeqOf_iff.2 (isListOf_like ha')
  exact ((alikeAll_same false h hv).tuple ha ha').2.all ha ha'

/-- **C53.**  The same for `encode_packed`. -/
theorem C53_encode_packed [Ext] {types : List TypeStr} {ts : List Ty} (hT : Names types ts)
    {args args' : PyVal} {vs vs' : List PyVal} (ha : IsListOf args vs) (ha' : IsListOf args' vs')
    (h : AlikeAll ts vs vs') : encodePacked types args = encodePacked types args' ∨
      ((∃ e, encodePacked types args = .error e) ∧ (∃ e, encodePacked types args' = .error e) ∧
        ¬ (PrintableAll vs ∧ PrintableAll vs')) := by
  have hv := Ty.allValid_iff.2 (supportedAll_valid hT)
  have h1 : encodePacked types args = _ := encode_eq true hT (isListOf_iff.1 ha)
  have h2 : encodePacked types args' = _ := encode_eq true hT (isListOf_iff.1 ha')
  rw [h1, h2]
  replace ha := isSeqOf_iff.2 (isListOf_like ha)
  replace ha' := isSeqOf_iff.2 (isListOf_like ha')
  exact ((alikeAll_same true h hv).tuple ha ha').2.all ha ha'

/-- **C53.**  `is_encodable` and `is_encodable_packed` give the same answer.  If a value holds an integer of
too many digits, one may answer no where the other raises `ValueError`. -/
theorem C53_is_encodable [Ext] (pk : Bool) {s : TypeStr} {t : Ty} (hT : Supported s t) {v v' : PyVal}
    (h : Alike t v v') : (regBy pk).isEncodable s v = (regBy pk).isEncodable s v' ∨
      ((regBy pk).isEncodable s v ≠ .ok true ∧ (regBy pk).isEncodable s v' ≠ .ok true ∧
        ¬ (Printable v ∧ Printable v')) := by
  have hno : ∀ (u : PyVal) (e : Exc), (encOf pk t).validateValue u = .error e →
      (regBy pk).isEncodable s u ≠ .ok true := by
    intro u e he
    rcases isEncodable_supported pk hT u with ⟨h1, _⟩ | ⟨_, _, _, h2⟩ | ⟨_, _, h2⟩ | ⟨_, _, h2⟩
    · rw [he] at h1; cases h1
    · rw [h2]; simp
    · rw [h2]; simp
    · rw [h2]; simp
  rcases (alike_same pk h (supported_valid hT)).1 with h | ⟨⟨e, h1⟩, ⟨e', h2⟩, hp⟩
  · left
    rcases isEncodable_supported pk hT v with ⟨h1, h2⟩ | ⟨e, h1, he, h2⟩ | ⟨h1, _, h2⟩ | ⟨h1, _, h2⟩ <;>
      rcases isEncodable_supported pk hT v' with ⟨h3, h4⟩ | ⟨e', h3, he', h4⟩ | ⟨h3, _, h4⟩ | ⟨h3, _, h4⟩ <;>
      rw [h2, h4] <;> exfalso <;> rw [h, h3] at h1 <;> cases h1
    · cases he
    · cases he
    · cases he'
    · cases he'
  · exact .inr ⟨hno _ _ h1, hno _ _ h2, hp⟩

/-- **C53, with printable integers only.** -/
theorem C53_printable [Ext] {types : List TypeStr} {ts : List Ty} (hT : Names types ts) {args args' : PyVal}
    {vs vs' : List PyVal} (ha : IsListOf args vs) (ha' : IsListOf args' vs') (h : AlikeAll ts vs vs')
    (hp : PrintableAll vs) (hp' : PrintableAll vs') :
    encode types args = encode types args' ∧ encodePacked types args = encodePacked types args' := by
  constructor
  · rcases C53_encode hT ha ha' h with h | ⟨_, _, h⟩
    · exact h
    · exact absurd ⟨hp, hp'⟩ h
  · rcases C53_encode_packed hT ha ha' h with h | ⟨_, _, h⟩
    · exact h
    · exact absurd ⟨hp, hp'⟩ h

/-- **C53, the exceptions can differ.**  `10 ** 4300` and `Decimal(10) ** 4300` as `ufixed8x1`. -/
theorem C53_digits_false : ¬ ∀ [Ext] (types : List TypeStr) (ts : List Ty), Names types ts →
    ∀ vs vs' : List PyVal, AlikeAll ts vs vs' → encode types (.list vs) = encode types (.list vs') := by
  intro hall
  have := letI := Ex.ext; hall [t!"ufixed8x1"] [.ufixed 8 1]
    (.cons ⟨.ufixed (m := 8) (n := 1) (by decide) (by decide) (by decide), by decide⟩ .nil)
    [.int (10 ^ 4300)] [.dec (.fin (10 ^ 4300) 0)] (.cons (.ufixed rfl rfl rfl) .rest)
  revert this
  let := Ex.ext
  decide +kernel

/-- **C53.**  `decode` does the same with `bytes` and with a `bytearray`, for all type strings. -/
theorem C53_decode [Ext] (types : List TypeStr) {data data' : PyVal} {d : Bytes} (h : IsBytes data d)
    (h' : IsBytes data' d) (strict : Bool) : decode types data strict = decode types data' strict := by
  cases h <;> cases h' <;> rfl

/-! Two numbers of different value, two byte strings of different content, two addresses are not alike,
and neither are `1` and `True` as `uint8`. -/

section
attribute [local instance] Ex.ext

/-- `encode(['(fixed16x1,bytes)[]', 'address'], …)` with a list of tuples, `Decimal('1.0')`, `bytes` and
an address in digits; and with a tuple of lists, `1`, a `bytearray` and the 20 bytes. -/
theorem Ex.names_alike : Names [t!"(fixed16x1,bytes)[]", t!"address"]
    [.dyn (.tuple [.fixed 16 1, .bytes]), .address] :=
  .cons ⟨.dyn (s := t!"(fixed16x1,bytes)") (.tuple (s := t!"fixed16x1,bytes")
    (.cons (s := t!"fixed16x1") (s' := t!"bytes")
      (.fixed (m := 16) (n := 1) (by decide) (by decide) (by decide)) (.one .bytes))), by decide⟩
    (.cons ⟨.address, by decide⟩ .nil)

theorem Ex.alike (a b : Bytes) (p : PyStr) (ha : address? (.str p) = some a) (ha' : address? (.bytes a) = some a) :
    AlikeAll [.dyn (.tuple [.fixed 16 1, .bytes]), .address]
      [.list [.tuple [.dec (.fin 10 (-1)), .bytes b], .list [.bool true, .bytearray b]], .str p]
      [.tuple [.list [.int 1, .bytearray b], .tuple [.dec (.fin 100 (-2)), .bytes b]], .bytes a] := by
  refine .cons (.dyn (.list _) (.tuple _) (.cons ?_ (.cons ?_ .nil))) (.cons (.address ha ha') .rest)
  · exact .tuple (.tuple _) (.list _) (.cons (.fixed rfl rfl (by norm_num))
      (.cons (.bytes (.bytes b) (.bytearray b)) .rest))
  · exact .tuple (.list _) (.tuple _) (.cons (.fixed rfl rfl (by norm_num))
      (.cons (.bytes (.bytearray b) (.bytes b)) .rest))

/-- `0x0101…01` -/
def Ex.addr01 : PyStr := ofChars (t!"0x" ++ (List.replicate 20 t!"01").flatten)

theorem Ex.addr01_eq : address? (.str Ex.addr01) = some (List.replicate 20 1) := by decide +kernel

example (b : Bytes) : encode [t!"(fixed16x1,bytes)[]", t!"address"] (.list
      [.list [.tuple [.dec (.fin 10 (-1)), .bytes b], .list [.bool true, .bytearray b]], .str Ex.addr01]) =
    encode [t!"(fixed16x1,bytes)[]", t!"address"] (.tuple
      [.tuple [.list [.int 1, .bytearray b], .tuple [.dec (.fin 100 (-2)), .bytes b]],
        .bytes (List.replicate 20 1)]) :=
  (C53_printable Ex.names_alike (.list _) (.tuple _) (Ex.alike _ b _ Ex.addr01_eq (by decide))
    (by simp [PrintableAll, Printable]) (by
      have : PrintableInt 1 := printableInt_of_lt (Nat.one_lt_pow (by decide) (by decide))
      simp [PrintableAll, Printable, this])).1

/-- The case above is encoded … -/
example : (encode [t!"(fixed16x1,bytes)[]", t!"address"] (.list
      [.list [.tuple [.dec (.fin 10 (-1)), .bytes [7]], .list [.bool true, .bytearray [7]]],
        .str Ex.addr01])).map List.length = .ok 416 := by
  decide +kernel

/-- … and one of the same form that is refused: `Decimal('1.05')` and `Decimal('1.050')` as `fixed16x1`. -/
example : encode [t!"fixed16x1"] (.list [.dec (.fin 105 (-2))]) = .error .illegalValue ∧
    encode [t!"fixed16x1"] (.list [.dec (.fin 1050 (-3))]) = .error .illegalValue := by decide +kernel

example : encode [t!"fixed16x1"] (.list [.dec (.fin 105 (-2))]) =
    encode [t!"fixed16x1"] (.list [.dec (.fin 1050 (-3))]) :=
  (C53_printable (.cons ⟨.fixed (m := 16) (n := 1) (by decide) (by decide) (by decide), by decide⟩ .nil)
    (.list _) (.list _) (.cons (.fixed rfl rfl (by norm_num)) .rest)
    (by simp [PrintableAll, Printable]) (by simp [PrintableAll, Printable])).1

/-- `range(3)` and `[0, 1, 2]` as `uint8[3]`. -/
example : encodePacked [t!"uint8[3]"] (.list [.seq [.int 0, .int 1, .int 2]]) =
    encodePacked [t!"uint8[3]"] (.list [.list [.int 0, .int 1, .int 2]]) := by
  have hp : ∀ i : Int, (i = 0 ∨ i = 1 ∨ i = 2) → PrintableInt i := by
    rintro i (rfl | rfl | rfl) <;> exact printableInt_of_lt (by decide +kernel)
  refine (C53_printable (ts := [.sized 3 (.uint 8)])
    (.cons ⟨.sized (k := 3) (s := t!"uint8") (.uint (n := 8) (by decide)) (by decide) (by decide), by decide⟩ .nil)
    (.list _) (.list _) (.cons (.items (.seq _) (.list _)) .rest) ?_ ?_).2 <;>
  simp [PrintableAll, Printable, hp]

/-- `1` and `True` are not alike as `uint8` … -/
example : isEncodable t!"uint8" (.int 1) = .ok true ∧ isEncodable t!"uint8" (.bool true) = .ok false := by
  decide +kernel

/-- … and are alike as `ufixed8x1`. -/
example : isEncodable t!"ufixed8x1" (.int 1) = isEncodable t!"ufixed8x1" (.bool true) := by
  rcases C53_is_encodable false (s := t!"ufixed8x1") (t := .ufixed 8 1)
    ⟨.ufixed (m := 8) (n := 1) (by decide) (by decide) (by decide), by decide⟩ (v := .int 1) (v' := .bool true)
    (.ufixed rfl rfl (by norm_num)) with h | ⟨_, _, h⟩
  · exact h
  · exact absurd ⟨printableInt_of_lt (Nat.one_lt_pow (by decide) (by decide)), trivial⟩ h

example : isEncodable t!"ufixed8x1" (.bool true) = .ok true := by decide +kernel

end

end EthAbi
