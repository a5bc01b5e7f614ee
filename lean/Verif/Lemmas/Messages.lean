import Verif.Spec.Messages
import Verif.Lemmas.Breaks
import Verif.Lemmas.Cost

/-! # The texts of the decoder objects are those of the troubles -/
namespace EthAbi
open Spec

/-- The text of a result. -/
def told {α : Type} : TM α → Option Msg
  | .ok _ => none
  | .error w => w.text

@[simp] theorem told_ok {α : Type} (a : α) : told (.ok a) = none := rfl
@[simp] theorem told_error {α : Type} (w : Trouble) : told (.error w : TM α) = w.text := rfl

theorem told_bind {α β : Type} (x : TM α) (f : α → TM β) :
    told (x >>= f) = match x with | .ok a => told (f a) | .error w => w.text := by
  cases x <;> rfl

namespace Saying

@[simp] theorem after_ok {α : Type} (a : α) (h : Option Msg) (f : α → Option Msg) : after (.ok a) h f = f a := rfl
@[simp] theorem after_error {α : Type} (e : Exc) (h : Option Msg) (f : α → Option Msg) :
    after (.error e) h f = h := rfl

theorem readFixed_says (st : Stream) (h : st.data.length < st.pos + 32) :
    readFixed 32 st = (Trouble.noWord (st.data.length - st.pos)).text := by
  have hs : ¬ ssizeMax < 32 := by decide
  have hlen : ((st.data.drop st.pos).take 32).length = st.data.length - st.pos := by simp; omega
  simp only [readFixed, Stream.read, if_neg hs, after_ok, hlen]
  rw [if_pos (by omega)]
  rfl

/-- A 32-byte decoder. -/
theorem fixed32_says {vb : Nat} {be : Bool} {fn : Bytes → PyM PyVal} {fs : Bytes → Option Msg} {neg : PyVal → Bool}
    (st : Stream) :
    fixed32 vb be fn fs neg st =
      if st.pos + 32 ≤ st.data.length then
        after (fn (splitDataAndPadding (vb / 8) 32 be ((st.data.drop st.pos).take 32)).1)
          (fs (splitDataAndPadding (vb / 8) 32 be ((st.data.drop st.pos).take 32)).1) fun value =>
          after (validatePadding (vb / 8) 32 (neg value)
            (splitDataAndPadding (vb / 8) 32 be ((st.data.drop st.pos).take 32)).2)
            (some (msgPadding (splitDataAndPadding (vb / 8) 32 be ((st.data.drop st.pos).take 32)).2)) fun _ => none
      else (Trouble.noWord (st.data.length - st.pos)).text := by
  rw [fixed32]
  rcases readFixed_spec st with ⟨b, h1, h2, h3, h4⟩ | ⟨h1, h2⟩
  · rw [h4, if_pos h3]
    rw [bytesAt, if_pos h3] at h1
    injection h1 with h1
    rw [h1]
    rfl
  · rw [h2, after_error]
    have hl : ¬ st.pos + 32 ≤ st.data.length := by
      intro h; rw [bytesAt, if_pos h] at h1; cases h1
    rw [if_neg hl, readFixed_says st (by omega)]

/-- The decoder of lengths and offsets. -/
theorem after_uint256 (st : Stream) (f : Nat × Stream → Option Msg) :
    after (decodeUint256 st) (uint256 st) f =
      match wordT st.data st.pos with
      | .ok n => f (n, { st with pos := st.pos + 32 })
      | .error w => w.text := by
  rcases decodeUint256_spec st with ⟨n, h1, h2, h3⟩ | ⟨h1, h2⟩
  · rw [h3, after_ok]
    have : wordT st.data st.pos = .ok n := by rw [← TM.exc_eq_ok, wordT_exc]; exact h1
    rw [this]
  · rw [h2, after_error]
    rw [← wordT_exc, TM.exc_eq_error] at h1
    obtain ⟨w, hw, _⟩ := h1
    rw [hw]
    obtain ⟨h3, rfl⟩ := noWord_iff.1 hw
    simp only [NoWord] at h3
    rw [uint256, fixed32_says, if_neg (by omega)]

end Saying

/-- What is proved of a decoder object with its texts. -/
structure SaysGood (t : Ty) (c : Saying) (strict : Bool) : Prop where
  dec : DecGood t c.dec strict
  tells : ∀ fl (st : Stream), st.data.length ≤ ssizeMax → st.pos ≤ ssizeMax →
    (t.dynamic = true → st.total = st.pos) → c.call fl st = told (posDecT strict t st.data st.pos)

namespace Saying

mutual
/-- The decoder object of a type, with its texts. -/
def ofTy : Ty → Saying
  | .uint n => ofFixed (fixed32 n true uintDecoderFn quiet neverNeg) (decOf (.uint n))
  | .int n => ofFixed (fixed32 n true (fun data => .ok (.int (toSigned n data))) quiet valNeg) (decOf (.int n))
  | .address => ofFixed (fixed32 160 true addressDecoderFn quiet neverNeg) (decOf .address)
  | .bool => ofFixed (fixed32 8 true boolDecoderFn boolFn neverNeg) (decOf .bool)
  | .ufixed m n => ofFixed (fixed32 m true
      (fun data => .ok (decVal (decDivTenPow (bigEndianToInt data) n))) quiet neverNeg) (decOf (.ufixed m n))
  | .fixed m n => ofFixed (fixed32 m true
      (fun data => .ok (decVal (decDivTenPow (toSigned m data) n))) quiet valNeg) (decOf (.fixed m n))
  | .bytesM m => ofFixed (fixed32 (m * 8) false (fun data => .ok (.bytes data)) quiet neverNeg) (decOf (.bytesM m))
  | .bytes => ofBytes (decOf .bytes)
  | .string => ofBytes (decOf .string)
  | .sized k t =>
    { dec := decOf (.sized k t)
      tells := fun fl _ st => arraySays fl (wrapDyn (ofTy t)) k st }
  | .dyn t =>
    { dec := decOf (.dyn t)
      tells := fun fl _ st => after (decodeUint256 st) (uint256 st) fun (k, st) => after (st.pushFrame 32) none fun st =>
        arraySays fl (wrapDyn (ofTy t)) k st }
  | .tuple ts =>
    { dec := decOf (.tuple ts)
      tells := fun fl _ st => tupleSays fl ((ofTys ts).map wrapDyn) st }
/-- The objects of a list of types. -/
def ofTys : List Ty → List Saying
  | [] => []
  | t :: ts => ofTy t :: ofTys ts
end

theorem ofTy_dec (t : Ty) : (ofTy t).dec = decOf t := by cases t <;> rw [ofTy] <;> rfl

theorem ofTys_map (ts : List Ty) : ofTys ts = ts.map ofTy := by
  induction ts with
  | nil => rfl
  | cons t ts ih => simp [ofTys, ih]

/-! ## Elementary types -/

theorem leaf_says {t : Ty} {vb : Nat} {be : Bool} {fn : Bytes → PyM PyVal} {fs : Bytes → Option Msg}
    {neg : PyVal → Bool} {strict : Bool} {d : Decoder} (hd : DecGood t d strict)
    (hpos : ∀ d p, posDecT strict t d p = leafT t d p)
    (h : ∀ raw : Bytes, raw.length = 32 →
      (after (fn (splitDataAndPadding (vb / 8) 32 be raw).1) (fs (splitDataAndPadding (vb / 8) 32 be raw).1) fun value =>
        after (validatePadding (vb / 8) 32 (neg value) (splitDataAndPadding (vb / 8) 32 be raw).2)
          (some (msgPadding (splitDataAndPadding (vb / 8) 32 be raw).2)) fun _ => none) =
        match leafDec t raw with | .ok _ => none | .error _ => (wordTrouble t raw).text) :
    SaysGood t (ofFixed (fixed32 vb be fn fs neg) d) strict where
  dec := hd
  tells fl st hl hp _ := by
    show fixed32 vb be fn fs neg st = _
    rw [fixed32_says, hpos, leafT]
    split
    · next hle =>
      rw [h _ (by simp; omega)]
      split <;> next hx => simp only [hx, told_ok, told_error]
    · rfl

theorem padding_says (vb : Nat) (neg : Bool) (pad : Bytes) :
    (after (validatePadding vb 32 neg pad) (some (msgPadding pad)) fun _ => none) =
      if pad = List.replicate (32 - vb) (if neg then 0xff else 0x00) then none else (Trouble.padding pad).text := by
  simp only [validatePadding]
  cases neg <;> simp <;> split <;> simp_all [Trouble.text, msgPadding]

theorem uint_says (n : Nat) (strict : Bool) : SaysGood (.uint n) (ofTy (.uint n)) strict := by
  rw [ofTy]
  refine leaf_says (uintD_good n strict) (fun _ _ => rfl) ?_
  intro raw _
  simp only [uintDecoderFn, after_ok, padding_says, splitDataAndPadding, neverNeg, leafDec, leafU, Bool.false_eq_true,
    if_false, if_true, wordTrouble]
  split <;> rfl

theorem int_says (n : Nat) (strict : Bool) : SaysGood (.int n) (ofTy (.int n)) strict := by
  rw [ofTy]
  refine leaf_says (sintD_good n strict) (fun _ _ => rfl) ?_
  intro raw _
  simp only [after_ok, padding_says, splitDataAndPadding, valNeg, leafDec, leafS, if_true, decide_eq_true_eq, wordTrouble]
  split <;> split <;> rfl

theorem ufixed_says (m n : Nat) (strict : Bool) : SaysGood (.ufixed m n) (ofTy (.ufixed m n)) strict := by
  rw [ofTy]
  refine leaf_says (ufixedD_good m n strict) (fun _ _ => rfl) ?_
  intro raw _
  simp only [after_ok, padding_says, splitDataAndPadding, neverNeg, leafDec, leafU, Bool.false_eq_true, if_false, if_true,
    wordTrouble]
  split <;> rfl

theorem fixed_says (m n : Nat) (strict : Bool) : SaysGood (.fixed m n) (ofTy (.fixed m n)) strict := by
  rw [ofTy]
  refine leaf_says (sfixedD_good m n strict) (fun _ _ => rfl) ?_
  intro raw _
  simp only [after_ok, padding_says, splitDataAndPadding, valNeg, leafDec, leafS, if_true, decide_eq_true_eq,
    decDivTenPow_eq, decVal, gridDec_neg, wordTrouble]
  split <;> split <;> rfl

theorem address_says (strict : Bool) : SaysGood .address (ofTy .address) strict := by
  rw [ofTy]
  refine leaf_says (addressD_good strict) (fun _ _ => rfl) ?_
  intro raw hr
  have h1 : (raw.drop 12).length = 20 := by simp [hr]
  simp only [splitDataAndPadding, neverNeg, leafDec, if_true, addressDecoderFn, toNormalizedAddress, wordTrouble]
  norm_num [h1, padding_says]
  split <;> rfl

theorem bool_says (strict : Bool) : SaysGood .bool (ofTy .bool) strict := by
  rw [ofTy]
  refine leaf_says (boolD_good strict) (fun _ _ => rfl) ?_
  intro raw hr
  have hp := padding_says 1 false (raw.take 31)
  norm_num at hp
  simp only [splitDataAndPadding, neverNeg, leafDec, leafU, if_true, boolDecoderFn, boolFn, wordTrouble]
  norm_num
  by_cases h0 : raw.drop 31 = [0]
  · simp only [h0, true_or, if_true, after_ok, hp]
    split <;> rfl
  · by_cases h1 : raw.drop 31 = [1]
    · have h10 : ¬ ([1] : Bytes) = [0] := by decide
      simp only [h1, h10, if_false, or_true, if_true, after_ok, hp]
      split <;> rfl
    · simp only [h0, h1, if_false, or_false, after_error]
      rfl

theorem bytesM_says (m : Nat) (strict : Bool) : SaysGood (.bytesM m) (ofTy (.bytesM m)) strict := by
  rw [ofTy]
  refine leaf_says (bytesMD_good m strict) (fun _ _ => rfl) ?_
  intro raw _
  simp only [after_ok, padding_says, splitDataAndPadding, neverNeg, leafDec, Bool.false_eq_true, if_false,
    Nat.mul_div_cancel m (by decide : 0 < 8), wordTrouble]
  split <;> rfl

/-! ## `bytes` and `string` -/

theorem byteString_says (strict : Bool) (st : Stream) : byteString strict st = told (bytesT strict st.data st.pos) := by
  simp only [byteString, bytesT, told_bind, after_uint256]
  cases wordT st.data st.pos with
  | error w => rfl
  | ok n =>
    simp only [Stream.read]
    by_cases ho : ssizeMax < ceil32 n
    · rw [if_pos ho, if_pos ho]; rfl
    · rw [if_neg ho, if_neg ho, after_ok]
      cases strict with
      | false => rfl
      | true =>
        simp only [if_true]
        split
        · rfl
        · split
          · rfl
          · rfl

theorem bytes_says (strict : Bool) : SaysGood .bytes ((ofTy .bytes).setStrict strict) strict where
  dec := bytesD_good strict
  tells fl st hl hp _ := by
    show byteString strict st = _
    rw [byteString_says, posDecT, told_bind]
    cases bytesT strict st.data st.pos <;> rfl

theorem string_says (strict : Bool) : SaysGood .string ((ofTy .string).setStrict strict) strict where
  dec := stringD_good strict
  tells fl st hl hp _ := by
    show byteString strict st = _
    rw [byteString_says, posDecT, told_bind]
    cases bytesT strict st.data st.pos with
    | error w => rfl
    | ok b =>
      simp only [told_ok, told_bind, textT]
      cases utf8Decode b <;> rfl

/-! ## Items of sequences -/

/-- An item of a sequence: what it does and what it says. -/
structure ItemSays (W : Saying) (fl : Flags) (t : Ty) (f : Nat → TM Val) (step : Nat) (st : Stream) : Prop where
  runs : ItemRuns W.dec fl t (fun p => (f p).exc) step st
  tells : W.call fl st = told (f st.pos)

theorem after_item {W : Saying} {fl : Flags} {t : Ty} {f : Nat → TM Val} {step : Nat} {st : Stream}
    (h : ItemSays W fl t f step st) (g : PyVal × Stream → Option Msg) :
    after (W.dec.call fl st) (W.call fl st) g =
      match f st.pos with
      | .ok x => g (toPy t x, { st with pos := st.pos + step })
      | .error w => w.text := by
  have hr := h.runs
  have hs := h.tells
  simp only [ItemRuns] at hr
  cases hf : f st.pos with
  | ok x => rw [hf] at hr; rw [hr.2]; rfl
  | error w => rw [hf] at hr hs; simp only [TM.exc_error] at hr; rw [hr, after_error, hs]; rfl

theorem wrapDyn_dec (c : Saying) : (wrapDyn c).dec = EthAbi.wrapDyn c.dec := by
  simp only [wrapDyn, EthAbi.wrapDyn]
  split <;> rfl

theorem wrap_says {t : Ty} {c : Saying} {strict : Bool} (h : SaysGood t c strict) (fl : Flags) (st : Stream)
    (hl : st.data.length ≤ ssizeMax) (hp : st.pos ≤ ssizeMax) :
    ItemSays (wrapDyn c) fl t (itemT t.dynamic (posDecT strict t st.data) st.data st.total) (headStep t) st where
  runs := by
    have := wrap_runs h.dec fl st hl hp
    rw [← wrapDyn_eq h.dec, ← wrapDyn_dec] at this
    have he : (fun p => (itemT t.dynamic (posDecT strict t st.data) st.data st.total p).exc) =
        posItem t.dynamic (posDec strict t st.data) st.data st.total := by
      funext p
      exact itemT_exc (posDecT_exc t strict st.data) _ _ _ _
    rw [he]
    exact this
  tells := by
    have hd : c.dec.dyn = t.dynamic := by simp only [Decoder.dyn, h.dec.isDyn, Option.getD_some]
    simp only [wrapDyn, hd, itemT]
    cases hdy : t.dynamic with
    | false =>
      simp only [Bool.false_eq_true, if_false]
      exact h.tells fl st hl hp (by rw [hdy]; simp)
    | true =>
      simp only [if_true]
      show after (decodeUint256 st) (uint256 st) _ = _
      rw [after_uint256, told_bind]
      cases wordT st.data st.pos with
      | error w => rfl
      | ok off =>
        simp only [Stream.pushFrame, Stream.seekInFrame, Stream.seek, Nat.add_zero]
        by_cases ho : ssizeMax < st.total + off
        · rw [if_pos ho, if_pos ho]; rfl
        · rw [if_neg ho, if_neg ho, after_ok]
          have := h.tells fl ⟨st.data, st.total + off, (off, st.pos + 32) :: st.frames, st.total + off⟩ hl
            (by show st.total + off ≤ ssizeMax; omega) (fun _ => rfl)
          exact this

/-! ## Arrays -/

theorem many_says {W : Saying} {fl : Flags} {t : Ty} {f : Nat → TM Val} {step : Nat} (n : Nat) (st : Stream)
    (hp : st.pos ≤ ssizeMax) (h : ∀ p, p ≤ ssizeMax → ItemSays W fl t f step { st with pos := p }) :
    many fl W n st = told (manyT f step n st.pos) := by
  induction n generalizing st with
  | zero => rfl
  | succ n ih =>
    have h0 : ItemSays W fl t f step st := h st.pos hp
    simp only [many, manyT, told_bind]
    rw [after_item h0]
    have hr := h0.runs
    simp only [ItemRuns] at hr
    cases hf : f st.pos with
    | error w => rfl
    | ok x =>
      rw [hf] at hr
      simp only
      rw [ih { st with pos := st.pos + step } hr.1 h]
      cases manyT f step n (st.pos + step) <;> rfl

theorem ptrLoop_says (base lo n : Nat) (st : Stream) : ptrLoop base lo n st = told (ptrsT st.data base lo n st.pos) := by
  induction n generalizing st with
  | zero => rfl
  | succ n ih =>
    simp only [ptrLoop, ptrsT, told_bind, ptrT, after_uint256]
    cases wordT st.data st.pos with
    | error w => rfl
    | ok off =>
      simp only [TM.ok_bind]
      by_cases hb : base + off < lo ∨ st.data.length ≤ base + off
      · rw [if_pos hb, if_pos hb]
        simp only [Nat.add_sub_cancel]
        rfl
      · rw [if_neg hb, if_neg hb, ih]
        rfl

theorem arraySays_says {t : Ty} {c : Saying} (h : SaysGood t c true) (fl : Flags) (k : Nat) (st : Stream)
    (hl : st.data.length ≤ ssizeMax) (hp : st.pos ≤ ssizeMax) (htot : t.dynamic = true → st.total = st.pos) :
    arraySays fl (wrapDyn c) k st =
      told (seqT t.dynamic (posDecT true t st.data) (headStep t) k st.data st.pos) := by
  have hHT : (wrapDyn c).dec.isHeadTail = t.dynamic := by rw [wrapDyn_dec]; exact wrapDyn_isHT h.dec
  have hseq : itemT t.dynamic (posDecT true t st.data) st.data st.pos =
      itemT t.dynamic (posDecT true t st.data) st.data st.total := by
    funext q
    cases hd : t.dynamic with
    | true => rw [htot hd]
    | false => rfl
  have hN := many_says (W := wrapDyn c) (fl := fl) (t := t)
    (f := itemT t.dynamic (posDecT true t st.data) st.data st.total) (step := headStep t) k st hp
    (fun p hpp => wrap_says h fl ⟨st.data, p, st.frames, st.total⟩ hl hpp)
  simp only [arraySays, seqT, arrayValidatePointers, hHT, hseq]
  cases hd : t.dynamic with
  | false =>
    rw [hd] at hN
    simp only [Bool.false_eq_true, if_false]
    exact hN
  | true =>
    rw [hd] at hN
    simp only [if_true]
    have hc := checkPtrs_spec st.pos (st.pos + 32 * k) k st
    rw [← ptrsT_exc] at hc
    cases hx : ptrsT st.data st.pos (st.pos + 32 * k) k st.pos with
    | ok u =>
      rw [hx] at hc
      rcases hc with ⟨_, h2⟩ | ⟨e, h1, _⟩
      · rw [h2]
        simp only [EthAbi.ok_bind, Stream.seek]
        rw [if_neg (by omega)]
        exact hN
      · cases h1
    | error w =>
      rw [hx] at hc
      rcases hc with ⟨h1, _⟩ | ⟨e, _, h2⟩
      · cases h1
      · rw [h2]
        simp only [EthAbi.error_bind, after_error, ptrLoop_says, hx]
        rfl

theorem sized_says {t : Ty} {k : Nat} {strict : Bool} (h : SaysGood t (ofTy t) true) :
    SaysGood (.sized k t) ((ofTy (.sized k t)).setStrict strict) strict where
  dec := by
    have := decOf_strict (.sized k t) strict
    simp only [setStrict, ofTy_dec]
    exact this
  tells fl st hl hp htot := by
    simp only [Ty.dynamic] at htot
    have : ((ofTy (.sized k t)).setStrict strict).call fl st = arraySays fl (wrapDyn (ofTy t)) k st := by
      simp only [call, setStrict, ofTy]
    rw [this, arraySays_says h fl k st hl hp htot, posDecT, told_bind]
    cases seqT t.dynamic (posDecT true t st.data) (headStep t) k st.data st.pos <;> rfl

theorem dyn_says {t : Ty} {strict : Bool} (h : SaysGood t (ofTy t) true) :
    SaysGood (.dyn t) ((ofTy (.dyn t)).setStrict strict) strict where
  dec := by
    have := decOf_strict (.dyn t) strict
    simp only [setStrict, ofTy_dec]
    exact this
  tells fl st hl hp htot := by
    have htot := htot rfl
    have : ((ofTy (.dyn t)).setStrict strict).call fl st =
        after (decodeUint256 st) (uint256 st) fun (k, st) => after (st.pushFrame 32) none fun st =>
        arraySays fl (wrapDyn (ofTy t)) k st := by
      simp only [call, setStrict, ofTy]
    rw [this, after_uint256, posDecT, told_bind]
    cases hw : wordT st.data st.pos with
    | error w => rfl
    | ok k =>
      have hle : st.pos + 32 ≤ st.data.length := by
        simp only [wordT] at hw
        split at hw
        · assumption
        · cases hw
      simp only [Stream.pushFrame, Stream.seekInFrame, Stream.seek, Nat.add_zero, htot]
      rw [if_neg (by omega), after_ok]
      rw [arraySays_says h fl k ⟨st.data, st.pos + 32, (32, st.pos + 32) :: st.frames, st.pos + 32⟩ hl
        (by show st.pos + 32 ≤ ssizeMax; omega) (fun _ => rfl), told_bind]
      simp only
      cases seqT t.dynamic (posDecT true t st.data) (headStep t) k st.data (st.pos + 32) <;> rfl

/-! ## Tuples -/

theorem wrapDyn_decs (cs : List Saying) : (cs.map wrapDyn).map (·.dec) = (cs.map (·.dec)).map EthAbi.wrapDyn := by
  simp only [List.map_map]
  congr 1
  funext c
  exact wrapDyn_dec c

theorem checkLoop_says {ts : List Ty} {cs : List Saying} {strict : Bool}
    (h : List.Forall₂ (fun t c => SaysGood t c strict) ts cs) (fl : Flags) (base lo : Nat) (st : Stream)
    (hl : st.data.length ≤ ssizeMax) (hp : st.pos ≤ ssizeMax) :
    checkLoop fl base lo (cs.map wrapDyn) st = told (checkAllT ts st.data base lo st.pos) := by
  induction h generalizing st with
  | nil => rfl
  | @cons t c ts cs h1 _ ih =>
    have hHT : (wrapDyn c).dec.isHeadTail = t.dynamic := by rw [wrapDyn_dec]; exact wrapDyn_isHT h1.dec
    simp only [List.map_cons, checkLoop, hHT, checkAllT, told_bind, headT]
    have hi := wrap_says h1 fl st hl hp
    cases hd : t.dynamic with
    | true =>
      simp only [if_true, ptrT, after_uint256, headStep, hd]
      cases hw : wordT st.data st.pos with
      | error w => rfl
      | ok off =>
        have hle : st.pos + 32 ≤ st.data.length := by
          simp only [wordT] at hw
          split at hw
          · assumption
          · cases hw
        simp only [TM.ok_bind]
        by_cases hb : base + off < lo ∨ st.data.length ≤ base + off
        · rw [if_pos hb, if_pos hb]
          simp only [Nat.add_sub_cancel]
          rfl
        · rw [if_neg hb, if_neg hb, ih ⟨st.data, st.pos + 32, st.frames, st.total⟩ hl (by simp only; omega)]
          rfl
    | false =>
      simp only [Bool.false_eq_true, if_false]
      rw [after_item hi]
      have hr := hi.runs
      simp only [ItemRuns] at hr
      have hit : itemT t.dynamic (posDecT strict t st.data) st.data st.total st.pos = posDecT true t st.data st.pos := by
        simp only [itemT, hd, Bool.false_eq_true, if_false, posDecT_static_strict hd strict true]
      rw [hit] at hr ⊢
      cases hx : posDecT true t st.data st.pos with
      | error w => rfl
      | ok x =>
        rw [hx] at hr
        simp only [TM.ok_bind]
        exact ih ⟨st.data, st.pos + headStep t, st.frames, st.total⟩ hl hr.1

theorem each_says {ts : List Ty} {cs : List Saying} {strict : Bool}
    (h : List.Forall₂ (fun t c => SaysGood t c strict) ts cs) (fl : Flags) (st : Stream)
    (hl : st.data.length ≤ ssizeMax) (hp : st.pos ≤ ssizeMax) :
    each fl (cs.map wrapDyn) st = told (posAllT strict ts st.data st.total st.pos) := by
  induction h generalizing st with
  | nil => rfl
  | @cons t c ts cs h1 _ ih =>
    have hi := wrap_says h1 fl st hl hp
    have hr := hi.runs
    simp only [ItemRuns] at hr
    simp only [List.map_cons, each, posAllT, told_bind]
    rw [after_item hi]
    cases hx : itemT t.dynamic (posDecT strict t st.data) st.data st.total st.pos with
    | error w => rfl
    | ok x =>
      rw [hx] at hr
      simp only
      rw [ih ⟨st.data, st.pos + headStep t, st.frames, st.total⟩ hl hr.1]
      simp only
      cases posAllT strict ts st.data st.total (st.pos + headStep t) <;> rfl

theorem decs_good {ts : List Ty} {cs : List Saying} {strict : Bool}
    (h : List.Forall₂ (fun t c => SaysGood t c strict) ts cs) :
    List.Forall₂ (fun t d => DecGood t d strict) ts (cs.map (·.dec)) := by
  induction h with
  | nil => exact .nil
  | cons h1 _ ih => exact .cons h1.dec ih

theorem tupleSays_says {ts : List Ty} {cs : List Saying} {strict : Bool}
    (h : List.Forall₂ (fun t c => SaysGood t c strict) ts cs) (fl : Flags) (st : Stream)
    (hl : st.data.length ≤ ssizeMax) (hp : st.pos ≤ ssizeMax) :
    tupleSays fl (cs.map wrapDyn) st =
      told (checkAllT ts st.data st.pos (st.pos + 32 * headWordsAll ts) st.pos >>= fun _ =>
        posAllT strict ts st.data st.total st.pos) := by
  have hg := decs_good h
  simp only [tupleSays, wrapDyn_decs, lenOfHead_eq hg, tupleValidatePointers, checkLoop_says h fl _ _ st hl hp, told_bind]
  have hc := tupleCheckLoop_spec hg fl st.pos (st.pos + 32 * headWordsAll ts) st hl hp
  have he := (allT_exc (ts := ts) (fun t _ => posDecT_exc t) true st.data).1 st.pos (st.pos + 32 * headWordsAll ts) st.pos
  rw [← he] at hc
  cases hx : checkAllT ts st.data st.pos (st.pos + 32 * headWordsAll ts) st.pos with
  | ok u =>
    rw [hx] at hc
    rcases hc with ⟨p, _, h2⟩ | ⟨e, h1, _⟩
    · rw [h2]
      simp only [EthAbi.ok_bind, Stream.seek]
      rw [if_neg (by omega)]
      exact each_says h fl st hl hp
    · cases h1
  | error w =>
    rw [hx] at hc
    rcases hc with ⟨p, h1, _⟩ | ⟨e, _, h2⟩
    · cases h1
    · rw [h2]
      rfl

theorem posAllT_base {ts : List Ty} (h : Ty.anyDynamic ts = false) (strict : Bool) (d : Bytes)
    (base base' p : Nat) : posAllT strict ts d base p = posAllT strict ts d base' p := by
  induction ts generalizing p with
  | nil => rfl
  | cons t ts ih =>
    simp only [Ty.anyDynamic, Bool.or_eq_false_iff] at h
    simp only [posAllT, h.1, itemT, Bool.false_eq_true, if_false, ih h.2]

theorem tuple_says {ts : List Ty} {strict : Bool} (h : ∀ t ∈ ts, SaysGood t (ofTy t) true) :
    SaysGood (.tuple ts) ((ofTy (.tuple ts)).setStrict strict) strict where
  dec := by
    have := decOf_strict (.tuple ts) strict
    simp only [setStrict, ofTy_dec]
    exact this
  tells fl st hl hp htot := by
    simp only [Ty.dynamic] at htot
    have : ((ofTy (.tuple ts)).setStrict strict).call fl st = tupleSays fl ((ofTys ts).map wrapDyn) st := by
      simp only [call, setStrict, ofTy]
    have hbase : posAllT true ts st.data st.pos st.pos = posAllT true ts st.data st.total st.pos := by
      cases hd : Ty.anyDynamic ts with
      | true => rw [htot hd]
      | false => exact posAllT_base hd _ _ _ _ _
    have hall : List.Forall₂ (fun t c => SaysGood t c true) ts (ofTys ts) := by
      clear this hbase htot
      induction ts with
      | nil => exact .nil
      | cons t ts ih => exact .cons (h t (by simp)) (ih fun t ht => h t (by simp [ht]))
    rw [this, tupleSays_says hall fl st hl hp, posDecT, hbase, told_bind, told_bind]
    cases checkAllT ts st.data st.pos (st.pos + 32 * headWordsAll ts) st.pos with
    | error w => rfl
    | ok u =>
      simp only [told_bind]
      cases posAllT true ts st.data st.total st.pos <;> rfl

theorem ofTy_setStrict_true (t : Ty) : (ofTy t).setStrict true = ofTy t := by
  simp only [Saying.setStrict, ofTy_dec, setStrict_true]
  rw [← ofTy_dec]

theorem static_setStrict {c : Saying} (h : c.dec.dyn = false) (strict : Bool) : c.setStrict strict = c := by
  simp only [Saying.setStrict, Decoder.setStrict, h, Bool.false_eq_true, if_false]

/-- The object of every type says what is wrong. -/
theorem ofTy_says (t : Ty) : ∀ strict, SaysGood t ((ofTy t).setStrict strict) strict := by
  refine Spec.Ty.ind (P := fun t => ∀ strict, SaysGood t ((ofTy t).setStrict strict) strict)
    ?_ ?_ ?_ ?_ ?_ ?_ ?_ ?_ ?_ ?_ ?_ ?_ t
  · intro n strict; rw [static_setStrict (by rw [ofTy_dec]; rfl)]; exact uint_says n strict
  · intro n strict; rw [static_setStrict (by rw [ofTy_dec]; rfl)]; exact int_says n strict
  · intro strict; rw [static_setStrict (by rw [ofTy_dec]; rfl)]; exact address_says strict
  · intro strict; rw [static_setStrict (by rw [ofTy_dec]; rfl)]; exact bool_says strict
  · intro m n strict; rw [static_setStrict (by rw [ofTy_dec]; rfl)]; exact ufixed_says m n strict
  · intro m n strict; rw [static_setStrict (by rw [ofTy_dec]; rfl)]; exact fixed_says m n strict
  · intro m strict; rw [static_setStrict (by rw [ofTy_dec]; rfl)]; exact bytesM_says m strict
  · exact bytes_says
  · exact string_says
  · intro k t ih strict; exact sized_says (by have := ih true; rwa [ofTy_setStrict_true] at this)
  · intro t ih strict; exact dyn_says (by have := ih true; rwa [ofTy_setStrict_true] at this)
  · intro ts ih strict
    exact tuple_says (fun t ht => by have := ih t ht true; rwa [ofTy_setStrict_true] at this)

/-! ## Looking up -/

/-- The classes of `sayingDecoders`. -/
def kit [Ext] : Kit Saying where
  uint n := sayingOf (fixed32 n true uintDecoderFn quiet neverNeg) (mkUIntD n)
  int n := sayingOf (fixed32 n true (fun data => .ok (.int (toSigned n data))) quiet valNeg) (mkSIntD n)
  address := .ok (.ofFixed (fixed32 160 true addressDecoderFn quiet neverNeg) addressDecoder)
  bool := .ok (.ofFixed (fixed32 8 true boolDecoderFn boolFn neverNeg) boolDecoder)
  ufixed m n := sayingOf (fixed32 m true
    (fun data => .ok (decVal (decDivTenPow (bigEndianToInt data) n))) quiet neverNeg) (mkUFixedD m n)
  fixed m n := sayingOf (fixed32 m true
    (fun data => .ok (decVal (decDivTenPow (toSigned m data) n))) quiet valNeg) (mkSFixedD m n)
  bytesM n := sayingOf (fixed32 (n * 8) false (fun data => .ok (.bytes data)) quiet neverNeg) (mkBytesMD (n * 8))
  bytes := .ofBytes (byteStringDecoder (.own true))
  string := .ofBytes (stringDecoder (.own true))
  array := Saying.array
  tuple := Saying.tuple

theorem kit_regs [Ext] : (kit).regs = sayingDecoders := rfl

theorem kit_makes [Ext] : (kit).Makes ofTy where
  uint n h := congrArg (sayingOf _) (decKit_makes.uint n h)
  int n h := congrArg (sayingOf _) (decKit_makes.int n h)
  address := rfl
  bool := rfl
  ufixed m n h h4 h5 := congrArg (sayingOf _) (decKit_makes.ufixed m n h h4 h5)
  fixed m n h h4 h5 := congrArg (sayingOf _) (decKit_makes.fixed m n h h4 h5)
  bytesM m h1 h2 := congrArg (sayingOf _) (decKit_makes.bytesM m h1 h2)
  bytes := rfl
  string := rfl
  array d t := by
    have h : mkArrayD d (decOf t) = .ok (decOf (wrapDim t d)) := decKit_makes.array d t
    simp only [kit, Saying.array, ofTy_dec, h, EthAbi.ok_bind, EthAbi.pure_eq_ok]
    cases d <;> simp only [wrapDim, ofTy]
  tuple ts := by
    have h : mkTupleD (ts.map decOf) = decOf (.tuple ts) := decKit_makes.tuple ts
    simp only [kit, Saying.tuple, ofTy, ofTys_map, List.map_map]
    rw [← h]
    congr 2
    simp [ofTy_dec]

theorem fuel_step [Ext] (n fuel : Nat) (s : TypeStr) (strict : Bool) :
    getSayingFuel (mappingOf n defaultPreds (kit).regs) (fuel + 1) s strict =
      (lookStep kit n (fun s' => getSayingFuel (mappingOf n defaultPreds (kit).regs) fuel s' true) s
        >>= fun d => .ok (d.setStrict strict)) := by
  rw [getSayingFuel, lookStep]
  split <;> simp_all

theorem fuel_outcome [Ext] (n fuel : Nat) : ∀ a s, Derives a s → a.numsOk = true → depth a ≤ fuel →
    Outcome ofTy (found a s) (getSayingFuel (mappingOf n defaultPreds (kit).regs) fuel s true) := by
  induction fuel with
  | zero =>
    intro a s _ _ h
    cases a <;> simp [depth] at h
  | succ fuel ih =>
    intro a s hd hn hdep
    rw [fuel_step]
    have := lookStep_outcome (n := n) (kit_makes) ih hd hn hdep
    cases hf : found a s with
    | none =>
      rw [hf] at this
      obtain ⟨e, he, ht⟩ := this
      rw [he]
      exact ⟨e, rfl, ht⟩
    | some t =>
      rw [hf] at this
      simp only [Outcome] at this ⊢
      rw [this, EthAbi.ok_bind, ofTy_setStrict_true]

theorem lookup [Ext] {s : TypeStr} {t : Ty} (h : Supported s t) (strict : Bool) :
    getSayingFuel (mappingOf 0 defaultPreds sayingDecoders) (s.length + 1) s strict =
      .ok ((ofTy t).setStrict strict) := by
  rw [← kit_regs]
  cases hp : parse s with
  | error e => exact absurd h (not_supported hp t)
  | ok a =>
    obtain ⟨hd, hn⟩ := parse_ok_iff.1 hp
    have := lookStep_outcome (n := 0) (kit_makes) (fuel_outcome 0 s.length) hd hn
      (by have := depth_le hd; omega)
    rw [(found_iff hd hn).2 h] at this
    simp only [Outcome] at this
    rw [fuel_step, this]
    rfl

theorem lookups [Ext] {types : List TypeStr} {ts : List Ty} (h : List.Forall₂ Supported types ts)
    (strict : Bool) :
    mapPyM (fun s => getSayingFuel (mappingOf 0 defaultPreds sayingDecoders) (s.length + 1) s strict) types
      = .ok (ts.map fun t => (ofTy t).setStrict strict) := by
  rw [mapPyM_ok]
  induction h with
  | nil => exact .nil
  | cons h1 _ ih => exact .cons (lookup h1 strict) ih

/-- The objects with texts are the objects that `decode` runs. -/
theorem lookups_dec [Ext] {types : List TypeStr} {ts : List Ty} (h : List.Forall₂ Supported types ts)
    (strict : Bool) :
    ∃ cs, mapPyM (fun s => getSayingFuel (mappingOf 0 defaultPreds sayingDecoders) (s.length + 1) s strict)
        types = .ok cs ∧
      mapPyM (fun s => getDecoder defaultRegistry s strict) types = .ok (cs.map (·.dec)) := by
  refine ⟨_, lookups h strict, ?_⟩
  rw [mapPyM_ok]
  induction h with
  | nil => exact .nil
  | cons h1 _ ih =>
    refine .cons ?_ ih
    rw [getDecoder_supported h1 strict]
    simp only [Saying.setStrict, ofTy_dec]

/-- What `decode` says. -/
theorem decodeSays_eq [Ext] {types : List TypeStr} {ts : List Ty} (h : List.Forall₂ Supported types ts) {d : Bytes}
    (hl : d.length ≤ ssizeMax) (strict : Bool) : decodeSays types d strict = told (posTopT strict ts d) := by
  rw [decodeSays, lookups h]
  have hall : List.Forall₂ (fun t c => SaysGood t c strict) ts (ts.map fun t => (ofTy t).setStrict strict) := by
    clear h
    induction ts with
    | nil => exact .nil
    | cons t ts ih => exact .cons (ofTy_says t strict) ih
  have := tupleSays_says hall (fun _ => true) (Stream.init d) hl (by simp [Stream.init])
  simp only [Stream.init, Nat.zero_add] at this
  exact this

end Saying
end EthAbi
