import Verif.Lemmas.Complaints
import Verif.Props.Utils

/-!
# C81: what the exceptions of `encode` say

`faultAt t v` is the first thing wrong with `v` as a value of type `t`: the type of the part at fault, the part, and the kind of fault.
-/
namespace EthAbi
open Spec

/-- `faultAt` finds what `fault` of C73 finds; the part at fault lies inside the value, and its type inside the type. -/
theorem C81_fault [Ext] (t : Ty) (v : PyVal) :
    (faultAt t v).map (·.2) = fault t v ∧
    ∀ u w e, faultAt t v = some (u, w, e) → Inside w v ∧ FaultKind w e := by
  refine ⟨faultAt_fault t v, fun u w e h => C73_part t v w e ?_⟩
  rw [← faultAt_fault, h]
  rfl

theorem isEncodingError_raised [Ext] {t : Ty} {v w : PyVal} {e : Exc} (h : fault t v = some (w, e)) :
    (raised (w, e)).isEncodingError = true ↔ e ≠ .typeError ∧ reprOk w = true := by
  have hk := (C73_part t v w e h).2
  unfold raised
  split
  · next h1 =>
    have h1 : e = .typeError := h1
    subst h1
    exact ⟨(fun h => nomatch h), fun h => absurd rfl h.1⟩
  · next h1 =>
    have h1 : e ≠ .typeError := h1
    rw [← shown_quoting]
    unfold shown
    split
    · next h2 =>
      refine ⟨fun _ => ⟨h1, h2⟩, fun _ => ?_⟩
      rcases hk with rfl | rfl | ⟨rfl, _⟩ | ⟨rfl, _⟩ <;> first | rfl | exact absurd rfl h1
    · next h2 => exact ⟨(fun h => nomatch h), fun h => absurd h.2 h2⟩

/-- **C81.**  The exception of `encode` and of `encode_packed` for wrong arguments is about the first part at fault: it names that part,
the class of encoders for the type of that part, and the reason.  Where no `EncodingError` is raised, nothing is said. -/
theorem C81_says [Ext] {types : List TypeStr} {ts : List Ty} (hT : Names types ts) {args : PyVal} {vs : List PyVal}
    (ha : IsListOf args vs) (packed : Bool) :
    (faultAt (.tuple ts) args = none → encodeBlames packed types args = none) ∧
    ∀ u w e, faultAt (.tuple ts) args = some (u, w, e) →
      (if packed then encodePacked types args else encode types args) = .error (raised (w, e)) ∧
      ((raised (w, e)).isEncodingError = true →
        ∃ r, Because u w e r ∧ encodeBlames packed types args = some ⟨w, className packed u, r⟩) ∧
      ((raised (w, e)).isEncodingError = false → encodeBlames packed types args = none) := by
  have hb := encodeBlames_blamed packed hT ha
  refine ⟨fun h => by rw [h] at hb; exact hb, fun u w e h => ?_⟩
  have hf : fault (.tuple ts) args = some (w, e) := by rw [← faultAt_fault, h]; rfl
  rw [h] at hb
  refine ⟨?_, fun hx => ?_, fun hx => ?_⟩
  · have hv := supportedAll_valid hT
    have hval : tupleValidate (encsOf packed ts) args = faulted (fault (.tuple ts) args) := by
      have := tuple_fault hv (fun t ht v => validate_fault false t (hv t ht) v) args
      cases packed
      · exact this
      · rw [tupleValidate_packed hv (fun t ht => validate_packed t (hv t ht)), this]
    have he : (regBy packed).encode types args = .error (raised (w, e)) := by
      rw [encode_eq packed hT (isListOf_iff.1 ha)]
      show tupleEncode _ _ = _
      rw [tupleEncode, hval, hf]
      rfl
    cases packed <;> exact he
  · obtain ⟨h1, h2⟩ := (isEncodingError_raised hf).1 hx
    rcases hb with ⟨h3, _⟩ | ⟨_, r, hr, hc⟩
    · exact absurd h3 h1
    · exact ⟨r, hr, by rw [hc, complain, if_pos h2]⟩
  · rcases hb with ⟨_, h3⟩ | ⟨h1, r, hr, hc⟩
    · exact h3
    · rw [hc, complain, if_neg]
      intro h2
      rw [(isEncodingError_raised hf).2 ⟨h1, h2⟩] at hx
      cases hx

/-- **C81.**  There is something to say exactly where `encode` raises an `EncodingError`. -/
theorem C81_when [Ext] {types : List TypeStr} {ts : List Ty} (hT : Names types ts) {args : PyVal} {vs : List PyVal}
    (ha : IsListOf args vs) (hw : 128 * weight args < 2 ^ 256) :
    ((encodeBlames false types args).isSome ↔ ∃ e, encode types args = .error e ∧ e.isEncodingError = true) ∧
    ((encodeBlames true types args).isSome ↔ ∃ e, encodePacked types args = .error e ∧ e.isEncodingError = true) := by
  have key : ∀ packed, ((encodeBlames packed types args).isSome ↔
      ∃ e, (if packed then encodePacked types args else encode types args) = .error e ∧ e.isEncodingError = true) := by
    intro packed
    obtain ⟨h1, h2⟩ := C81_says hT ha packed
    cases hf : faultAt (.tuple ts) args with
    | none =>
      rw [h1 hf]
      refine ⟨(fun h => nomatch h), ?_⟩
      rintro ⟨e, he, hx⟩
      exfalso
      have hf' : fault (.tuple ts) args = none := by rw [← faultAt_fault, hf]; rfl
      obtain ⟨_, h3, h4⟩ := C73_encode hT ha hw
      by_cases hs : NoSurrogatesAll vs
      · obtain ⟨⟨b, hb⟩, ⟨b', hb'⟩⟩ := h4 hf' hs
        rw [hb, hb'] at he
        cases packed <;> cases he
      · rw [(h3 hf' hs).1, (h3 hf' hs).2, ite_self] at he
        cases he
        cases hx
    | some f =>
      obtain ⟨u, w, e⟩ := f
      obtain ⟨h3, h4, h5⟩ := h2 u w e hf
      rw [h3]
      cases hx : (raised (w, e)).isEncodingError with
      | true =>
        obtain ⟨r, _, hr⟩ := h4 hx
        rw [hr]
        exact ⟨fun _ => ⟨_, rfl, hx⟩, fun _ => rfl⟩
      | false =>
        rw [h5 hx]
        refine ⟨(fun h => nomatch h), ?_⟩
        rintro ⟨e', he', hx'⟩
        cases he'
        rw [hx] at hx'
        cases hx'
  exact ⟨key false, key true⟩

/-- **C81.**  The text is made of the representation of the part at fault, in at most 79 characters, its Python type, the class and the
words for the reason. -/
theorem C81_text [Ext] (p : Printing) (packed : Bool) (types : List TypeStr) (args : PyVal) :
    encodeSays p packed types args = (encodeBlames packed types args).map (fun c =>
      t!"Value `" ++ shortened (p.rep c.value) ++ t!"` of type " ++ p.type c.value ++ t!" cannot be encoded by " ++ c.cls ++
        (words p c.reason).flatten) ∧
    (∀ rep, (shortened rep).length ≤ 79) := by
  refine ⟨?_, fun rep => ?_⟩
  · unfold encodeSays
    cases encodeBlames packed types args with
    | none => rfl
    | some c =>
      have hr : c.reason.text p = (words p c.reason).flatten := by
        cases c.reason <;> simp [Reason.text, words]
      have ha : abbr (p.rep c.value) = .ok (shortened (p.rep c.value)) := by
        unfold abbr shortened
        by_cases h : (p.rep c.value).length ≤ 79
        · rw [if_pos h, if_neg (by omega)]
        · rw [if_neg h, if_pos (by omega), if_neg (by norm_num)]
          rfl
      simp only [Complaint.text, ha, hr, ok_bind, pure_eq_ok]
      rfl
  · unfold shortened
    split
    · assumption
    · simp only [List.length_append, List.length_take, List.length_cons, List.length_nil]; omega

/-! ## What the reasons tell -/

theorem encodable_iff [Ext] {s : TypeStr} {t : Ty} (h : Supported s t) (v : PyVal) :
    isEncodable s v = .ok true ↔ fault t v = none :=
  ⟨no_fault_of h, fun hf => ((C73_isEncodable h v).1 hf).1⟩

/-- **C81.**  The range in the text is the range of the type: exactly the integers in it are encodable; of the multiples of the unit of a
fixed-point type, exactly those in it.  The size in the text is the greatest number of bytes that is encodable, and the number of items
expected is the only one that is.  What exceeds the allowed precision is what must be taken away for the rest to be a multiple of the
unit. -/
theorem C81_range [Ext] {s : TypeStr} {u : Ty} (h : Supported s u) {w : PyVal} {e : Exc} :
    (∀ bits least greatest, Because u w e (.bounds bits least greatest) →
      ∀ i, isEncodable s (.int i) = .ok true ↔ least ≤ i ∧ i ≤ greatest) ∧
    (∀ bits least greatest, Because u w e (.decBounds bits least greatest) →
      ∃ n, (∃ lo hi, FixedType u bits n lo hi) ∧ ∀ i, isEncodable s (.dec (.fin i (-(n : Int)))) = .ok true ↔
        decValue least ≤ decValue (i, -(n : Int)) ∧ decValue (i, -(n : Int)) ≤ decValue greatest) ∧
    (∀ m, Because u w e (.size m) → ∀ b, isEncodable s (.bytes b) = .ok true ↔ b.length ≤ m) ∧
    (∀ has want, Because u w e (.count has want) →
      (∃ ws, IsSeqOf w ws ∧ ws.length = has ∧ has ≠ want) ∧
      ∀ v vs, IsSeqOf v vs → isEncodable s v = .ok true → vs.length = want) ∧
    (∀ r n, Because u w e (.residue r n) →
      ∃ x, number? w = some x ∧ 0 < decValue r ∧
        (-999 ≤ x.2 → ∃ k : Int, decValue x - decValue r = k * 10 ^ (-(n : Int)))) := by
  refine ⟨fun bits lo hi hb i => ?_, fun bits lo hi hb => ?_, fun m hb b => ?_, fun has want hb => ?_, fun r n hb => ?_⟩
  · rw [encodable_iff h]
    cases hb with
    | uint _ =>
      have hd : fault (.uint bits) (.int i) =
        Option.map (fun e => (.int i, e)) (if 0 ≤ i ∧ i < 2 ^ bits then none else some .valueOutOfBounds) := rfl
      rw [hd]
      by_cases hi : 0 ≤ i ∧ i < 2 ^ bits
      · rw [if_pos hi]; exact ⟨fun _ => by omega, fun _ => rfl⟩
      · rw [if_neg hi]; exact ⟨fun h => by simp at h, fun _ => by omega⟩
    | int _ =>
      have hd : fault (.int bits) (.int i) = Option.map (fun e => (.int i, e))
        (if -2 ^ (bits - 1) ≤ i ∧ i < 2 ^ (bits - 1) then none else some .valueOutOfBounds) := rfl
      rw [hd]
      by_cases hi : -2 ^ (bits - 1) ≤ i ∧ i < 2 ^ (bits - 1)
      · rw [if_pos hi]; exact ⟨fun _ => by omega, fun _ => rfl⟩
      · rw [if_neg hi]; exact ⟨fun h => by simp at h, fun _ => by omega⟩
  · cases hb with
    | @fixed _ _ _ n l g _ _ ht hL hU =>
      refine ⟨n, ⟨_, _, ht⟩, fun i => ?_⟩
      have hf : fault u (.dec (.fin i (-(n : Int)))) =
          (fixedFault l g n (.dec (.fin i (-(n : Int))))).map fun e => (.dec (.fin i (-(n : Int))), e) := by
        cases ht <;> rfl
      rw [encodable_iff h, hf, Option.map_eq_none_iff, fixedFault_none, hL, hU]
      have hg : decValue (i, -(n : Int)) - (⌊decValue (i, -(n : Int)) * 10 ^ n⌋ : ℚ) * 10 ^ (-(n : Int)) = 0 := by
        have h1 : (10 : ℚ) ^ (-(n : Int)) * 10 ^ n = 1 := by
          rw [← zpow_natCast, ← zpow_add₀ (by norm_num)]; simp
        have h2 : decValue (i, -(n : Int)) * 10 ^ n = i := by
          show (i : ℚ) * 10 ^ (-(n : Int)) * 10 ^ n = i
          rw [mul_assoc, h1, mul_one]
        rw [h2, Int.floor_intCast]
        exact sub_self _
      have hp := ten_zpow_pos (-1000997)
      constructor
      · rintro ⟨x, hx, h1, h2, _⟩
        cases hx
        exact ⟨h1, h2⟩
      · rintro ⟨h1, h2⟩
        exact ⟨_, rfl, h1, h2, fun _ => by rw [hg]; linarith⟩
  · rw [encodable_iff h]
    cases hb with
    | size _ _ =>
      have hd : fault (.bytesM m) (.bytes b) =
        Option.map (fun e => (.bytes b, e)) (if b.length ≤ m then none else some .valueOutOfBounds) := rfl
      rw [hd]
      by_cases hi : b.length ≤ m
      · rw [if_pos hi]; exact ⟨fun _ => hi, fun _ => rfl⟩
      · rw [if_neg hi]; exact ⟨fun h => by simp at h, fun h => absurd h hi⟩
  · cases hb with
    | components hs hn =>
      refine ⟨⟨_, hs, rfl, hn⟩, fun v vs hv hok => ?_⟩
      rw [encodable_iff h, fault, isSeqOf_iff.1 hv] at hok
      simp only at hok
      split at hok
      · assumption
      · cases hok
    | elements hs hn =>
      refine ⟨⟨_, hs, rfl, hn⟩, fun v vs hv hok => ?_⟩
      rw [encodable_iff h, fault, isSeqOf_iff.1 hv] at hok
      simp only [Option.or_eq_none_iff] at hok
      have := hok.2
      split at this
      · assumption
      · cases this
  · cases hb with
    | places ht hx hr hex => exact ⟨_, hx, hr, fun hle => ⟨_, by rw [hex hle]; exact sub_sub_cancel _ _⟩⟩

/-! ## Examples -/

/-- Prints nothing but integers and a few decimals. -/
def Ex.printing : Printing where
  rep v := match v with
    | .int i => if 0 ≤ i then natDigits i.natAbs else '-' :: natDigits i.natAbs
    | .str _ => List.replicate 100 'x'
    | _ => t!"..."
  type v := match v with
    | .int _ => t!"<class 'int'>"
    | .str _ => t!"<class 'str'>"
    | _ => t!"<class '...'>"
  int i := if 0 ≤ i then natDigits i.natAbs else '-' :: natDigits i.natAbs
  dec x := natDigits x.1.natAbs ++ t!"E" ++ (if 0 ≤ x.2 then natDigits x.2.natAbs else '-' :: natDigits x.2.natAbs)

example : letI := Ex.ext
    encodeSays Ex.printing false [t!"(bool,int8[])"] (.list [.tuple [.bool true, .list [.int (-128), .int 128]]]) =
      some t!"Value `128` of type <class 'int'> cannot be encoded by SignedIntegerEncoder: Cannot be encoded in 8 bits. Must be bounded between [-128, 127]." ∧
    encodeSays Ex.printing true [t!"uint8"] (.list [.int 256]) =
      some t!"Value `256` of type <class 'int'> cannot be encoded by PackedUnsignedIntegerEncoder: Cannot be encoded in 8 bits. Must be bounded between [0, 255]." ∧
    encodeSays Ex.printing false [t!"uint8[2]"] (.list [.list [.int 1]]) =
      some t!"Value `...` of type <class '...'> cannot be encoded by SizedArrayEncoder: value has 1 items when 2 were expected" ∧
    encodeSays Ex.printing true [t!"uint8[]"] (.list [.int 7]) =
      some t!"Value `7` of type <class 'int'> cannot be encoded by PackedArrayEncoder: must be list-like such as array or tuple" ∧
    encodeSays Ex.printing true [t!"(uint8,bool)"] (.list [.list [.int 7]]) =
      some t!"Value `...` of type <class '...'> cannot be encoded by TupleEncoder: value has 1 items when 2 were expected" ∧
    encodeSays Ex.printing false [t!"ufixed8x1"] (.list [.dec (.fin 123 (-2))]) =
      some t!"Value `...` of type <class '...'> cannot be encoded by UnsignedFixedEncoder: residue Decimal('3E-2') outside allowed fractional precision of 1" ∧
    encodeSays Ex.printing false [t!"ufixed8x1"] (.list [.int 26]) =
      some t!"Value `26` of type <class 'int'> cannot be encoded by UnsignedFixedEncoder: Cannot be encoded in 8 bits. Must be bounded between [0E0, 255E-1]." ∧
    encodeSays Ex.printing false [t!"bytes2"] (.list [.bytes [1, 2, 3]]) =
      some t!"Value `...` of type <class '...'> cannot be encoded by BytesEncoder: exceeds total byte size for bytes2 encoding" ∧
    encodeSays Ex.printing false [t!"bool"] (.list [.str []]) =
      some (t!"Value `" ++ List.replicate 76 'x' ++ t!"...` of type <class 'str'> cannot be encoded by BooleanEncoder") ∧
    encodeSays Ex.printing false [t!"bool"] (.list [.bool true]) = none := by
  decide +kernel

example [Ext] : faultAt (.tuple [.tuple [.bool, .dyn (.int 8)]]) (.list [.tuple [.bool true, .list [.int (-128), .int 128]]]) =
    some (.int 8, .int 128, .valueOutOfBounds) := rfl

/-- The range that is named is the range. -/
example [Ext] (i : Int) : isEncodable t!"int8" (.int i) = .ok true ↔ -128 ≤ i ∧ i ≤ 127 :=
  (C81_range ⟨.int (n := 8) (by decide), by decide⟩).1 8 (-128) 127 (.int (n := 8) (i := 128) (by decide)) i

end EthAbi
