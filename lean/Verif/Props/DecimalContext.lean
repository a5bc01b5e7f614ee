import Verif.Lemmas.DecimalContext
import Verif.Lemmas.Bytes
import Verif.Props.Examples

/-!
# C92: the caller's decimal context

The coders of fixed-point types, run in any decimal context of the caller, end as the coders of the model do (which know the
context of the module only), and leave the caller's context as it was.
-/
namespace EthAbi

open DecimalContext Spec

/-- **C92**, encoding an unsigned fixed-point number (standard and packed mode), for every value and every context of the
caller: the result is that of the encoder, and the context is left as it was, flags included. -/
theorem C92_ufixed [Ext] {m n d : Nat} {enc : Encoder} (h : mkUFixed m n d = .ok enc) (v : PyVal) (caller : Ctx) :
    DecimalContext.ufixedEncode (importedContext defaultContext) m n d true v caller = (lift (enc.call v), caller) := by
  obtain ⟨hn, hc⟩ := mkUFixed_places h
  rw [hc]
  exact quiet_ufixed (quiet_validate (quiet_ubounds (abi_powNeg hn) (mul_abi _ _)) fun x _ _ _ _ _ => abi_rem hn x)
    (fun _ => quiet_scaled (abi_pow hn) fun x _ => mul_abi _ _) caller

/-- **C92**, encoding a signed fixed-point number. -/
theorem C92_fixed [Ext] {m n d : Nat} {enc : Encoder} (h : mkSFixed m n d = .ok enc) (v : PyVal) (caller : Ctx) :
    DecimalContext.sfixedEncode (importedContext defaultContext) m n d v caller = (lift (enc.call v), caller) := by
  obtain ⟨hn, hc⟩ := mkSFixed_places h
  rw [hc]
  exact quiet_sfixed (quiet_validate (quiet_sbounds (abi_powNeg hn) (mul_abi _ _) (mul_abi _ _))
    fun x _ _ _ _ _ => abi_rem hn x) (fun _ => quiet_scaled (abi_pow hn) fun x _ => mul_abi _ _) caller

/-- **C92**, `scale_places`. -/
theorem C92_scale_places (places : Int) (x : Dec10) (caller : Ctx) :
    DecimalContext.scalePlaces (importedContext defaultContext) places x caller =
      (lift (EthAbi.scalePlaces places x), caller) :=
  Quiet.bind (Quiet.localcontext (powTen_abi _)) (fun _ _ => Quiet.localcontext (mul_abi _ _)) caller

/-- **C92**, decoding an unsigned fixed-point number.  The context of the module may come from any default context of the
process whose exponents go from `-900` to `99`. -/
theorem C92_ufixed_decode {m n : Nat} {dec : Decoder} (h : mkUFixedD m n = .ok dec) (default : Ctx)
    (hmin : default.emin ≤ -900) (hmax : 99 ≤ default.emax) (fl : Flags) (strict : Bool) (st : Stream) (caller : Ctx) :
    DecimalContext.decodeFixed m (ufixedDecoderFn (importedContext default) n) neverNeg st caller =
      (lift (dec.run fl strict st), caller) := by
  unfold mkUFixedD at h
  obtain ⟨_, _, h⟩ := bind_eq_ok.1 h
  obtain ⟨_, h1, h⟩ := bind_eq_ok.1 h
  cases h
  exact quiet_decode (fun data hd => wide_ufn (abi := importedContext default) rfl ⟨hmin, hmax⟩ (placesD_le h1) hd) st caller

/-- **C92**, decoding a signed fixed-point number. -/
theorem C92_fixed_decode {m n : Nat} {dec : Decoder} (h : mkSFixedD m n = .ok dec) (default : Ctx)
    (hmin : default.emin ≤ -900) (hmax : 99 ≤ default.emax) (fl : Flags) (strict : Bool) (st : Stream) (caller : Ctx) :
    DecimalContext.decodeFixed m (sfixedDecoderFn (importedContext default) m n) valNeg st caller =
      (lift (dec.run fl strict st), caller) := by
  unfold mkSFixedD at h
  obtain ⟨_, h0, h⟩ := bind_eq_ok.1 h
  obtain ⟨_, h1, h⟩ := bind_eq_ok.1 h
  cases h
  exact quiet_decode (fun data hd => wide_sfn (abi := importedContext default) rfl ⟨hmin, hmax⟩ (checkSizesD_le h0) (placesD_le h1) hd) st caller

/-- **C92**, the default context of the process when the package is imported: its rounding, its traps and its flags do not
matter for numbers of at most 900 places after the point. -/
theorem C92_ufixed_default [Ext] {m n d : Nat} {enc : Encoder} (h : mkUFixed m n d = .ok enc) (hm : m ≤ 256) (default : Ctx)
    (hmin : default.emin ≤ -900) (hmax : 99 ≤ default.emax) {v : PyVal} (hv : ∀ x, number? v = some x → -900 ≤ x.2)
    (caller : Ctx) :
    DecimalContext.ufixedEncode (importedContext default) m n d true v caller = (lift (enc.call v), caller) := by
  obtain ⟨hn, hc⟩ := mkUFixed_places h
  rw [hc]
  exact wide_u (abi := importedContext default) rfl ⟨hmin, hmax⟩ hm hn (by simpa only [asDec10_eq] using hv) caller

/-- **C92**, the same for signed types. -/
theorem C92_fixed_default [Ext] {m n d : Nat} {enc : Encoder} (h : mkSFixed m n d = .ok enc) (hm : m ≤ 256) (default : Ctx)
    (hmin : default.emin ≤ -900) (hmax : 99 ≤ default.emax) {v : PyVal} (hv : ∀ x, number? v = some x → -900 ≤ x.2)
    (caller : Ctx) :
    DecimalContext.sfixedEncode (importedContext default) m n d v caller = (lift (enc.call v), caller) := by
  obtain ⟨hn, hc⟩ := mkSFixed_places h
  rw [hc]
  exact wide_s (abi := importedContext default) rfl ⟨hmin, hmax⟩ hm hn (by simpa only [asDec10_eq] using hv) caller

/-- A process that has set `decimal.DefaultContext.rounding = ROUND_DOWN` before the import. -/
def roundDownProcess : Ctx := { defaultContext with rounding := .down }

/-- A process that has set the trap `Inexact` in `decimal.DefaultContext` before the import. -/
def trapProcess : Ctx := { defaultContext with traps := fun s => defaultContext.traps s || s = .inexact }

/-- `Decimal('-1.9999…')` with 1000 nines. -/
def longNumber : PyVal := .dec (.fin (-(2 * 10 ^ 1000 - 1)) (-1000))

/-- **C92**, the bound of 900 places is needed: `-1.99…9` with 1000 nines is encoded as `-2.0` in a usual process, as `-1.9` in
one whose default rounding was `ROUND_DOWN` at the import, and not at all in one where `Inexact` was trapped. -/
theorem C92_default_matters : letI := Ex.ext
    (DecimalContext.sfixedEncode (importedContext defaultContext) 8 1 32 longNumber defaultContext).1 =
      .ok (List.replicate 31 0xff ++ [0xec]) ∧
    (DecimalContext.sfixedEncode (importedContext roundDownProcess) 8 1 32 longNumber defaultContext).1 =
      .ok (List.replicate 31 0xff ++ [0xed]) ∧
    (DecimalContext.sfixedEncode (importedContext trapProcess) 8 1 32 longNumber defaultContext).1 =
      .error (.signal .inexact) := by
  decide +kernel

/-! ## Examples: the hypotheses are met, and the arithmetic alone does depend on the caller's context -/

/-- A caller's context of three digits, rounding up, that traps everything. -/
def strictCaller : Ctx :=
  { prec := 3, emin := -5, emax := 5, rounding := .up, traps := fun _ => true, flags := fun _ => false }

example : (mul (12345, -2) (10, 0) strictCaller).1 = .error (.signal .inexact) := by decide +kernel
example : (mul (12345, -2) (10, 0) { strictCaller with traps := fun _ => false }).1 = .ok (124, 1) := by decide +kernel
example : (mul (12345, -2) (10, 0) { strictCaller with traps := fun _ => false }).2.flags .rounded = true := by decide +kernel

example : letI := Ex.ext
    (mkUFixed 128 18 32).isOk = true ∧
    (DecimalContext.ufixedEncode (importedContext defaultContext) 128 18 32 true (.dec (.fin 12345 (-3))) strictCaller).1 =
      .ok (be32 12345000000000000000) ∧
    (DecimalContext.ufixedEncode (importedContext defaultContext) 128 18 32 true (.dec (.fin 1 (-19))) strictCaller).1 =
      .error (.exc .illegalValue) := by decide +kernel

example : letI := Ex.ext
    (mkSFixed 128 18 32).isOk = true ∧
    (DecimalContext.sfixedEncode (importedContext roundDownProcess) 128 18 32 (.dec (.fin (-1) (-18))) strictCaller).1 =
      .ok (List.replicate 32 0xff) := by decide +kernel

example : (mkSFixedD 128 18).isOk = true ∧ (mkUFixedD 128 18).isOk = true ∧
    (sfixedDecoderFn (importedContext trapProcess) 128 18 (List.replicate 16 0xff) strictCaller).1 =
      .ok (.dec (.fin (-1) (-18))) := by decide +kernel

example : roundDownProcess.emin ≤ -900 ∧ 99 ≤ roundDownProcess.emax ∧ trapProcess.emin ≤ -900 ∧ 99 ≤ trapProcess.emax := by
  decide +kernel

end EthAbi
