import Verif.Lemmas.Direct
import Verif.Lemmas.Encode
import Verif.Lemmas.ToPy

/-! # Coder objects with sizes of one's own: the objects -/
namespace EthAbi
open Spec

/-- The encoder object, once its arguments are accepted. -/
def directEncB [Ext] (c : Cls) (v d f : Nat) (big : Bool) : Encoder :=
  match c with
  | .bool => { isDynamic := some false, validate := some boolValidate
               call := fixedSizeEncode boolValidate boolEncodeFn big d }
  | .uint => { isDynamic := some false
               validate := some (intValidate (computeUnsignedIntegerBounds v))
               call := fixedSizeEncode (intValidate (computeUnsignedIntegerBounds v)) uintEncodeFn big d }
  | .int => sintEnc v d
  | .ufixed => { isDynamic := some false
                 validate := some (fixedValidate (computeUnsignedFixedBounds v f) f)
                 call := fixedSizeEncode (fixedValidate (computeUnsignedFixedBounds v f) f)
                   (ufixedEncodeFn f) big d }
  | .fixed => sfixedEnc v f d
  | .address => { isDynamic := some false, validate := some addressValidate
                  call := fixedSizeEncode addressValidate toCanonicalAddress big d }
  | .bytesM => { isDynamic := some false, validate := some (bytesMValidate v)
                 call := fixedSizeEncode (bytesMValidate v) bytesEncodeFn big d }

/-- The encoder object with the usual `is_big_endian`. -/
def directEnc [Ext] (c : Cls) (v d f : Nat) : Encoder :=
  match c with
  | .bool => boolEnc d
  | .uint => uintEnc v d
  | .int => sintEnc v d
  | .ufixed => ufixedEnc v f d
  | .fixed => sfixedEnc v f d
  | .address => addressEnc d
  | .bytesM => bytesMEnc (v / 8) d

theorem directEncB_usual [Ext] {c : Cls} {v d f : Nat} (h8 : v % 8 = 0) :
    directEncB c v d f (usualOrder c) = directEnc c v d f := by
  cases c <;> try rfl
  simp only [directEncB, directEnc, bytesMEnc]
  rw [show v / 8 * 8 = v by omega]
  rfl

theorem LeafGood.congr' [Ext] {t : Ty} {e : Encoder} {d : Nat} {f g : Val → Bytes} (h : LeafGood t e d f)
    (hfg : ∀ x, Val.Of t x → f x = g x) : LeafGood t e d g :=
  { h with enc := fun v x hx => by rw [← hfg x (denote_of t v x hx)]; exact h.enc v x hx }

theorem direct_good [Ext] {c : Cls} {v d f : Nat} (hs : SizesOk c v d f) (hb : BitsOk c v) :
    LeafGood (clsType c v f) (directEnc c v d f) d (encIn d (clsType c v f)) := by
  obtain ⟨h8, hvd, hf⟩ := hs
  cases c <;> simp only [BitsOk] at hb
  case bool =>
    have h := bool_good (d := d) (by omega)
    exact h.congr' (by intro x hx; cases x <;> first | rfl | cases hx)
  case uint =>
    have h := uint_good (n := v) (d := d) (by omega) (by omega)
    exact h.congr' (by intro x hx; cases x <;> first | rfl | cases hx)
  case int =>
    have h := sint_good (n := v) (d := d) hb h8 (by omega)
    exact h.congr' (by intro x hx; cases x <;> first | rfl | cases hx)
  case ufixed =>
    have h := ufixed_good (m := v) (n := f) (d := d) ⟨hb.1, hb.2, h8⟩ (hf (by simp)).2 (by omega)
    exact h.congr' (by intro x hx; cases x <;> first | rfl | cases hx)
  case fixed =>
    have h := sfixed_good (m := v) (n := f) (d := d) ⟨hb.1, hb.2, h8⟩ (hf (by simp)).2 (by omega)
    exact h.congr' (by intro x hx; cases x <;> first | rfl | cases hx)
  case address =>
    have h := address_good (d := d) (by omega)
    exact h.congr' (by intro x hx; cases x <;> first | rfl | cases hx)
  case bytesM =>
    have h := bytesM_good (m := v / 8) (d := d) (by omega)
    exact h.congr' (by intro x hx; cases x <;> first | rfl | cases hx)

/-- The decoder object, once its arguments are accepted. -/
def directDecB (c : Cls) (v d f : Nat) (big : Bool) : Decoder :=
  fixedDecoder (decodeFixed v d big (directFn c v f) (directNeg c))

/-- The decoder object with the usual `is_big_endian`. -/
def directDec (c : Cls) (v d f : Nat) : Decoder := directDecB c v d f (usualOrder c)

theorem checkSizes_iff (v d : Nat) :
    checkSizes v d = if v % 8 = 0 ∧ v ≤ 8 * d then .ok () else .error .valueError := by
  unfold checkSizes
  split
  · rw [if_neg (by tauto)]
  · split
    · rw [if_neg (by omega)]
    · rw [if_pos (by omega)]

theorem checkSizesD_iff (v d : Nat) :
    checkSizesD v d = if v % 8 = 0 ∧ v ≤ 8 * d then .ok () else .error .valueError :=
  checkSizes_iff v d

theorem checkFrac_iff (f : Nat) :
    checkFrac f = if 1 ≤ f ∧ f ≤ 80 then .ok () else .error .valueError := by
  unfold checkFrac
  split
  · rw [if_neg (by omega)]
  · rw [if_pos (by omega)]

theorem checkFracD_iff (f : Nat) :
    checkFracD f = if 1 ≤ f ∧ f ≤ 80 then .ok () else .error .valueError := checkFrac_iff f

theorem attrs_value (c : Cls) : c.attrs.value =
    if c = .bool then some 8 else if c = .address then some 160 else none := by cases c <;> rfl

theorem attrs_data (c : Cls) : c.attrs.data = some 32 := by cases c <;> rfl

theorem attrs_frac (c : Cls) : c.attrs.frac = none := by cases c <;> rfl

theorem attrs_big (c : Cls) : c.attrs.big = some (if c = .bytesM then 0 else 1) := by cases c <;> rfl

/-- No keyword is foreign to the class. -/
def Known (c : Cls) (kwargs : List (Key × Option Nat)) : Prop := ∀ p ∈ kwargs, takes c p.1 = true

theorem encoder_ok [Ext] {c : Cls} {kwargs : List (Key × Option Nat)} (hn : DistinctKeys kwargs)
    (hk : Known c kwargs) {v d f : Nat} {big : Bool} (hA : Asks c kwargs v d f big) (hS : SizesOk c v d f)
    (h160 : c = .address → v = 160) : c.encoder kwargs = .ok (directEncB c v d f big) := by
  obtain ⟨h1, h2, h3, nb, h4, rfl⟩ := hA
  obtain ⟨h8, hvd, hf⟩ := hS
  unfold Cls.encoder
  rw [initKwargs_known hn hk, attrs_value, attrs_data, attrs_frac, attrs_big, h1, h2, h4]
  have hc : checkSizes v d = .ok () := by rw [checkSizes_iff, if_pos ⟨h8, hvd⟩]
  simp only [ok_bind, notNone, hc]
  cases c
  case bool => rfl
  case uint => rfl
  case int => simp only [mkSInt, hc, ok_bind]; rfl
  case ufixed =>
    rw [if_pos (by simp)] at h3
    have hcf : checkFrac f = .ok () := by rw [checkFrac_iff, if_pos (hf (by simp))]
    simp only [h3, hcf, ok_bind]; rfl
  case fixed =>
    rw [if_pos (by simp)] at h3
    have hcf : checkFrac f = .ok () := by rw [checkFrac_iff, if_pos (hf (by simp))]
    simp only [h3, mkSFixed, hc, hcf, ok_bind]; rfl
  case address =>
    obtain rfl := h160 rfl
    rfl
  case bytesM => rfl

theorem notNone_error {x : Option Nat} (h : x = none) : notNone x = .error .valueError := by subst h; rfl

theorem encoder_error [Ext] {c : Cls} {kwargs : List (Key × Option Nat)} (hn : DistinctKeys kwargs)
    (hk : Known c kwargs)
    (h : ¬ ∃ v d f big, Asks c kwargs v d f big ∧ SizesOk c v d f ∧ (c = .address → v = 160)) :
    c.encoder kwargs = .error .valueError := by
  unfold Cls.encoder
  rw [initKwargs_known hn hk, attrs_value, attrs_data, attrs_frac, attrs_big]
  simp only [ok_bind]
  cases h1 : argument kwargs .valueBitSize
      (if c = .bool then some 8 else if c = .address then some 160 else none) with
  | none => rfl
  | some v =>
  cases h2 : argument kwargs .dataByteSize (some 32) with
  | none => rfl
  | some d =>
  cases h4 : argument kwargs .isBigEndian (some (if c = .bytesM then 0 else 1)) with
  | none => rfl
  | some nb =>
  simp only [notNone, ok_bind]
  by_cases hs : v % 8 = 0 ∧ v ≤ 8 * d
  swap
  · rw [checkSizes_iff, if_neg hs]; rfl
  have hc : checkSizes v d = .ok () := by rw [checkSizes_iff, if_pos hs]
  rw [hc, ok_bind]
  cases c
  case ufixed =>
    cases h3 : argument kwargs .fracPlaces none with
    | none => rfl
    | some f =>
    simp only [ok_bind, checkFrac_iff]
    rw [if_neg]
    · rfl
    · exact fun hf => h ⟨v, d, f, _, ⟨h1, h2, by simpa using h3, nb, h4, rfl⟩, ⟨hs.1, hs.2, fun _ => hf⟩, by simp⟩
  case fixed =>
    cases h3 : argument kwargs .fracPlaces none with
    | none => rfl
    | some f =>
    simp only [mkSFixed, hc, ok_bind, checkFrac_iff]
    rw [if_neg]
    · rfl
    · exact fun hf => h ⟨v, d, f, _, ⟨h1, h2, by simpa using h3, nb, h4, rfl⟩, ⟨hs.1, hs.2, fun _ => hf⟩, by simp⟩
  case address =>
    simp only [checkAddressBits]
    rw [if_pos]
    · rfl
    · exact fun hv => h ⟨v, d, 0, _, ⟨h1, h2, by simp, nb, h4, rfl⟩, ⟨hs.1, hs.2, by simp⟩, fun _ => hv⟩
  all_goals exact absurd ⟨v, d, 0, _, ⟨h1, h2, by simp, nb, h4, rfl⟩, ⟨hs.1, hs.2, by simp⟩, by simp⟩ h

theorem decoder_ok {c : Cls} {kwargs : List (Key × Option Nat)} (hn : DistinctKeys kwargs)
    (hk : Known c kwargs) {v d f : Nat} {big : Bool} (hA : Asks c kwargs v d f big) (hS : SizesOk c v d f) :
    c.decoder kwargs = .ok (directDecB c v d f big) := by
  obtain ⟨h1, h2, h3, nb, h4, rfl⟩ := hA
  obtain ⟨h8, hvd, hf⟩ := hS
  unfold Cls.decoder
  rw [initKwargs_known hn hk, attrs_value, attrs_data, attrs_frac, attrs_big, h1, h2, h4]
  have hc : checkSizesD v d = .ok () := by rw [checkSizesD_iff, if_pos ⟨h8, hvd⟩]
  simp only [ok_bind, notNone, hc]
  cases c
  case ufixed =>
    rw [if_pos (by simp)] at h3
    have hcf : checkFracD f = .ok () := by rw [checkFracD_iff, if_pos (hf (by simp))]
    simp only [h3, hcf, ok_bind]; rfl
  case fixed =>
    rw [if_pos (by simp)] at h3
    have hcf : checkFracD f = .ok () := by rw [checkFracD_iff, if_pos (hf (by simp))]
    simp only [h3, hcf, ok_bind]; rfl
  all_goals rfl

theorem decoder_error {c : Cls} {kwargs : List (Key × Option Nat)} (hn : DistinctKeys kwargs)
    (hk : Known c kwargs) (h : ¬ ∃ v d f big, Asks c kwargs v d f big ∧ SizesOk c v d f) :
    c.decoder kwargs = .error .valueError := by
  unfold Cls.decoder
  rw [initKwargs_known hn hk, attrs_value, attrs_data, attrs_frac, attrs_big]
  simp only [ok_bind]
  cases h1 : argument kwargs .valueBitSize
      (if c = .bool then some 8 else if c = .address then some 160 else none) with
  | none => rfl
  | some v =>
  cases h2 : argument kwargs .dataByteSize (some 32) with
  | none => rfl
  | some d =>
  cases h4 : argument kwargs .isBigEndian (some (if c = .bytesM then 0 else 1)) with
  | none => rfl
  | some nb =>
  simp only [notNone, ok_bind]
  by_cases hs : v % 8 = 0 ∧ v ≤ 8 * d
  swap
  · rw [checkSizesD_iff, if_neg hs]; rfl
  have hc : checkSizesD v d = .ok () := by rw [checkSizesD_iff, if_pos hs]
  rw [hc, ok_bind]
  cases c
  case ufixed =>
    cases h3 : argument kwargs .fracPlaces none with
    | none => rfl
    | some f =>
    simp only [ok_bind, checkFracD_iff]
    rw [if_neg]
    · rfl
    · exact fun hf => h ⟨v, d, f, _, ⟨h1, h2, by simpa using h3, nb, h4, rfl⟩, ⟨hs.1, hs.2, fun _ => hf⟩⟩
  case fixed =>
    cases h3 : argument kwargs .fracPlaces none with
    | none => rfl
    | some f =>
    simp only [ok_bind, checkFracD_iff]
    rw [if_neg]
    · rfl
    · exact fun hf => h ⟨v, d, f, _, ⟨h1, h2, by simpa using h3, nb, h4, rfl⟩, ⟨hs.1, hs.2, fun _ => hf⟩⟩
  all_goals exact absurd ⟨v, d, 0, _, ⟨h1, h2, by simp, nb, h4, rfl⟩, ⟨hs.1, hs.2, by simp⟩⟩ h

/-- How a call fails. -/
theorem direct_call_error [Ext] {c : Cls} {v d f : Nat} (hs : SizesOk c v d f) (hb : BitsOk c v) {x : PyVal}
    {er : Exc} (h : (directEnc c v d f).call x = .error er) : Refused (clsType c v f) x er := by
  have hg := direct_good (f := f) hs hb
  have hv : (directEnc c v d f).validateValue x = .error er := by
    cases hx : (directEnc c v d f).validateValue x with
    | ok u =>
      obtain ⟨b, hb, _⟩ := hg.total x hx
      rw [hb] at h; cases h
    | error e2 =>
      have : ∃ g : PyM Bytes, (directEnc c v d f).call x =
          ((directEnc c v d f).validateValue x >>= fun _ => g) := by
        cases c <;> exact ⟨_, rfl⟩
      obtain ⟨g, hg2⟩ := this
      rw [hg2, hx, error_bind] at h
      injection h with h
      rw [h]
  exact hg.valErr x er hv

end EthAbi
