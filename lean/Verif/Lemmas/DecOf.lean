import Verif.Lemmas.PosDec

/-! # The decoder objects do what `posDec` does -/
namespace EthAbi
open Spec

theorem readFixed_spec (st : Stream) :
    (∃ b, bytesAt st.data st.pos 32 = .ok b ∧ b.length = 32 ∧ st.pos + 32 ≤ st.data.length ∧
      readFixed 32 st = .ok (b, { st with pos := st.pos + 32 })) ∨
    (bytesAt st.data st.pos 32 = .error .insufficientDataBytes ∧
      readFixed 32 st = .error .insufficientDataBytes) := by
  have hs : ¬ ssizeMax < 32 := by decide
  have hlen : ((st.data.drop st.pos).take 32).length = min 32 (st.data.length - st.pos) := by simp
  simp only [readFixed, Stream.read, bytesAt, if_neg hs, ok_bind]
  by_cases h : st.pos + 32 ≤ st.data.length
  · left
    have h2 : ((st.data.drop st.pos).take 32).length = 32 := by omega
    refine ⟨_, by rw [if_pos h], h2, h, ?_⟩
    rw [if_neg (by omega), h2]; rfl
  · right
    rw [if_neg h, if_pos (by omega)]
    exact ⟨rfl, rfl⟩

theorem decodeUint256_spec (st : Stream) :
    (∃ n, wordAt st.data st.pos = .ok n ∧ st.pos + 32 ≤ st.data.length ∧
      decodeUint256 st = .ok (n, { st with pos := st.pos + 32 })) ∨
    (wordAt st.data st.pos = .error .insufficientDataBytes ∧
      decodeUint256 st = .error .insufficientDataBytes) := by
  rcases readFixed_spec st with ⟨b, h1, h2, h3, h4⟩ | ⟨h1, h2⟩
  · left
    refine ⟨bigEndianToInt b, by simp [wordAt, h1], h3, ?_⟩
    simp [decodeUint256, h4, splitDataAndPadding, validatePadding]
  · right
    exact ⟨by simp [wordAt, h1], by simp [decodeUint256, h2]⟩

/-! ## Elementary types -/

theorem leaf_good {t : Ty} {vb : Nat} {be : Bool} {fn : Bytes → PyM PyVal} {neg : PyVal → Bool}
    {strict : Bool} (hd : t.dynamic = false) (hs : t.size = 32) (hsz : ∀ k u, t ≠ .sized k u)
    (hpos : ∀ d p, posDec strict t d p = (bytesAt d p 32 >>= leafDec t))
    (h : ∀ raw : Bytes, raw.length = 32 →
      (fn (splitDataAndPadding (vb / 8) 32 be raw).1 >>= fun value =>
        validatePadding (vb / 8) 32 (neg value) (splitDataAndPadding (vb / 8) 32 be raw).2 >>=
          fun _ => .ok value) = (leafDec t raw >>= fun x => .ok (toPy t x))) :
    DecGood t (fixedDecoder (decodeFixed32 vb be fn neg)) strict where
  isDyn := by rw [hd]; rfl
  notHT := rfl
  size := by cases t <;> first | rfl | exact absurd rfl (hsz _ _)
  run fl st hlen hp _ := by
    simp only [RunsAs, hpos, Decoder.call, fixedDecoder, decodeFixed32]
    rcases readFixed_spec st with ⟨b, h1, h2, h3, h4⟩ | ⟨h1, h2⟩
    · have hb := h b h2
      simp only [h1, h4, ok_bind]
      generalize splitDataAndPadding (vb / 8) 32 be b = sp at hb
      obtain ⟨data, pad⟩ := sp
      simp only at hb ⊢
      cases hl : leafDec t b with
      | error e =>
        rw [hl, error_bind] at hb
        rcases bind_eq_error.1 hb with hb | ⟨value, hv, hb⟩
        · simp [hb]
        · rcases bind_eq_error.1 hb with hb | ⟨_, _, hb⟩
          · simp [hv, hb]
          · cases hb
      | ok x =>
        rw [hl, ok_bind] at hb
        obtain ⟨value, hv, hb⟩ := bind_eq_ok.1 hb
        obtain ⟨_, hb, hb2⟩ := bind_eq_ok.1 hb
        injection hb2 with hb2
        subst hb2
        refine ⟨{ st with pos := st.pos + 32 }, by simp [hv, hb], rfl, rfl, rfl, ?_, fun _ => by rw [hs]⟩
        simp only; omega
    · simp [h1, h2]

theorem validatePadding_bind (vb : Nat) (neg : Bool) (pad : Bytes) (v : PyVal) :
    (validatePadding vb 32 neg pad >>= fun _ => (.ok v : PyM PyVal)) =
      if pad = List.replicate (32 - vb) (if neg then 0xff else 0x00) then .ok v
      else .error .nonEmptyPaddingBytes := by
  simp only [validatePadding]
  cases neg <;> simp <;> split <;> simp_all

theorem uintD_good (n : Nat) (strict : Bool) : DecGood (.uint n) (decOf (.uint n)) strict := by
  refine leaf_good rfl rfl (by simp) (fun _ _ => rfl) ?_
  intro raw _
  simp only [uintDecoderFn, ok_bind, validatePadding_bind, splitDataAndPadding, neverNeg, leafDec,
    leafU, Bool.false_eq_true, if_false, if_true]
  split <;> rfl

theorem sintD_good (n : Nat) (strict : Bool) : DecGood (.int n) (decOf (.int n)) strict := by
  refine leaf_good rfl rfl (by simp) (fun _ _ => rfl) ?_
  intro raw _
  simp only [ok_bind, validatePadding_bind, splitDataAndPadding, valNeg, leafDec, leafS, if_true,
    decide_eq_true_eq]
  split <;> split <;> rfl

theorem decDivTenPow_eq (i : Int) (n : Nat) : decDivTenPow i n = gridDec i n := by
  induction n generalizing i with
  | zero => rfl
  | succ n ih => simp only [decDivTenPow, gridDec, ih]

theorem gridDec_neg (i : Int) (n : Nat) : (gridDec i n).1 < 0 ↔ i < 0 := by
  induction n generalizing i with
  | zero => rfl
  | succ n ih =>
    simp only [gridDec]
    split
    · rw [ih]; omega
    · rfl

theorem ufixedD_good (m n : Nat) (strict : Bool) :
    DecGood (.ufixed m n) (decOf (.ufixed m n)) strict := by
  refine leaf_good rfl rfl (by simp) (fun _ _ => rfl) ?_
  intro raw _
  simp only [ok_bind, validatePadding_bind, splitDataAndPadding, neverNeg, leafDec,
    leafU, Bool.false_eq_true, if_false, if_true, decDivTenPow_eq]
  split <;> rfl

theorem sfixedD_good (m n : Nat) (strict : Bool) :
    DecGood (.fixed m n) (decOf (.fixed m n)) strict := by
  refine leaf_good rfl rfl (by simp) (fun _ _ => rfl) ?_
  intro raw _
  simp only [ok_bind, validatePadding_bind, splitDataAndPadding, valNeg, leafDec, leafS, if_true,
    decide_eq_true_eq, decDivTenPow_eq, decVal, gridDec_neg]
  split <;> split <;> rfl

theorem addressD_good (strict : Bool) : DecGood .address (decOf .address) strict := by
  refine leaf_good rfl rfl (by simp) (fun _ _ => rfl) ?_
  intro raw hr
  have h1 : (raw.drop 12).length = 20 := by simp [hr]
  simp only [splitDataAndPadding, neverNeg, leafDec, if_true, addressDecoderFn, toNormalizedAddress]
  norm_num [h1, validatePadding_bind]
  split <;> rfl

theorem boolD_good (strict : Bool) : DecGood .bool (decOf .bool) strict := by
  refine leaf_good rfl rfl (by simp) (fun _ _ => rfl) ?_
  intro raw hr
  simp only [splitDataAndPadding, neverNeg, leafDec, leafU, if_true, boolDecoderFn]
  norm_num
  by_cases h0 : raw.drop 31 = [0]
  · rw [if_pos h0, if_pos (Or.inl h0), h0, ok_bind]
    have := validatePadding_bind 1 false (raw.take 31) (.bool false)
    norm_num at this
    rw [this]
    split <;> rfl
  · rw [if_neg h0]
    by_cases h1 : raw.drop 31 = [1]
    · rw [if_pos h1, if_pos (Or.inr h1), h1, ok_bind]
      have := validatePadding_bind 1 false (raw.take 31) (.bool true)
      norm_num at this
      rw [this]
      split <;> rfl
    · rw [if_neg h1, if_neg (by simp [h0, h1])]
      rfl

theorem bytesMD_good (m : Nat) (strict : Bool) : DecGood (.bytesM m) (decOf (.bytesM m)) strict := by
  refine leaf_good rfl rfl (by simp) (fun _ _ => rfl) ?_
  intro raw _
  simp only [ok_bind, validatePadding_bind, splitDataAndPadding, neverNeg, leafDec,
    Bool.false_eq_true, if_false, Nat.mul_div_cancel m (by decide : 0 < 8)]
  split <;> rfl

/-! ## `bytes` and `string` -/

theorem readByteString_spec (strict : Bool) (st : Stream) (hl : st.data.length ≤ ssizeMax) :
    (∃ b p, posBytes strict st.data st.pos = .ok b ∧ p ≤ ssizeMax ∧
      readByteString strict st = .ok (b, { st with pos := p })) ∨
    (∃ e, posBytes strict st.data st.pos = .error e ∧ readByteString strict st = .error e) := by
  simp only [posBytes, readByteString]
  rcases decodeUint256_spec st with ⟨n, h1, h2, h3⟩ | ⟨h1, h2⟩
  · simp only [h1, h3, ok_bind]
    simp only [Stream.read]
    by_cases ho : ssizeMax < ceil32 n
    · rw [if_pos ho, if_pos ho]
      exact Or.inr ⟨_, rfl, rfl⟩
    · rw [if_neg ho, if_neg ho]
      simp only [ok_bind, pure_eq_ok]
      have hp : st.pos + 32 + ((st.data.drop (st.pos + 32)).take (ceil32 n)).length ≤ ssizeMax := by
        simp only [List.length_take, List.length_drop]
        omega
      generalize (st.data.drop (st.pos + 32)).take (ceil32 n) = b at hp
      cases strict with
      | false => exact Or.inl ⟨b.take n, _, rfl, hp, rfl⟩
      | true =>
        simp only [if_true]
        by_cases h4 : b.length < ceil32 n
        · rw [if_pos h4, if_pos h4]; exact Or.inr ⟨_, rfl, rfl⟩
        · rw [if_neg h4, if_neg h4]
          by_cases h5 : b.drop n ≠ List.replicate (ceil32 n - n) 0
          · rw [if_pos h5, if_pos h5]; exact Or.inr ⟨_, rfl, rfl⟩
          · rw [if_neg h5, if_neg h5]
            exact Or.inl ⟨b.take n, _, rfl, hp, rfl⟩
  · exact Or.inr ⟨_, by rw [h1]; rfl, by rw [h2]; rfl⟩

theorem bytesD_good (strict : Bool) : DecGood .bytes (byteStringDecoder (.own strict)) strict where
  isDyn := rfl
  notHT := rfl
  size := rfl
  run fl st hl hp _ := by
    simp only [RunsAs, posDec, Decoder.call, byteStringDecoder, Decoder.isStrict]
    rcases readByteString_spec strict st hl with ⟨b, p, h1, h2, h3⟩ | ⟨e, h1, h2⟩
    · rw [h1, h3]
      exact ⟨_, rfl, rfl, rfl, rfl, h2, fun h => by cases h⟩
    · rw [h1, h2]
      rfl

theorem stringD_good (strict : Bool) : DecGood .string (stringDecoder (.own strict)) strict where
  isDyn := rfl
  notHT := rfl
  size := rfl
  run fl st hl hp _ := by
    simp only [RunsAs, posDec, Decoder.call, stringDecoder, stringDecoderWith, Decoder.isStrict]
    rcases readByteString_spec strict st hl with ⟨b, p, h1, h2, h3⟩ | ⟨e, h1, h2⟩
    · simp only [h1, h3, ok_bind]
      cases utf8Decode b with
      | error e => rfl
      | ok s => exact ⟨_, rfl, rfl, rfl, rfl, h2, fun h => by cases h⟩
    · simp only [h1, h2, error_bind]

/-! ## Items of sequences -/

/-- A decoder of an item in a sequence does what `f` says and goes `step` bytes on. -/
def ItemRuns (W : Decoder) (fl : Flags) (t : Ty) (f : Nat → PyM Val) (step : Nat) (st : Stream) :
    Prop :=
  match f st.pos with
  | .error e => W.call fl st = .error e
  | .ok x => st.pos + step ≤ ssizeMax ∧
      W.call fl st = .ok (toPy t x, { st with pos := st.pos + step })

theorem stream_eq {a b : Stream} (h1 : a.data = b.data) (h2 : a.pos = b.pos)
    (h3 : a.frames = b.frames) (h4 : a.total = b.total) : a = b := by
  cases a; cases b; simp_all

theorem static_runs {t : Ty} {d : Decoder} {strict : Bool} (h : DecGood t d strict)
    (hd : t.dynamic = false) (fl : Flags) (st : Stream) (hl : st.data.length ≤ ssizeMax)
    (hp : st.pos ≤ ssizeMax) :
    ItemRuns d fl t (posDec strict t st.data) t.size st := by
  have := h.run fl st hl hp (by rw [hd]; simp)
  unfold RunsAs at this
  unfold ItemRuns
  split
  · next e he => rw [he] at this; exact this
  · next x hx =>
    rw [hx] at this
    obtain ⟨st', h1, h2, h3, h4, h5, h6⟩ := this
    have h6 := h6 hd
    refine ⟨by omega, ?_⟩
    rw [h1]
    congr 2
    exact stream_eq h2 h6 h3 h4

theorem headTail_runs {t : Ty} {d : Decoder} {strict : Bool} (h : DecGood t d strict)
    (fl : Flags) (st : Stream) (hl : st.data.length ≤ ssizeMax) :
    ItemRuns (headTail d) fl t (posItem true (posDec strict t st.data) st.data st.total) 32 st := by
  simp only [ItemRuns, posItem, if_true, Decoder.call, headTail]
  rcases decodeUint256_spec st with ⟨off, h1, h2, h3⟩ | ⟨h1, h2⟩
  · simp only [h1, h3, ok_bind, Stream.pushFrame, Stream.seekInFrame, Stream.seek, Nat.add_zero]
    by_cases ho : ssizeMax < st.total + off
    · rw [if_pos ho, if_pos ho]; rfl
    · rw [if_neg ho, if_neg ho]
      simp only [ok_bind]
      have hr := h.run fl ⟨st.data, st.total + off, (off, st.pos + 32) :: st.frames, st.total + off⟩
        hl (by show st.total + off ≤ ssizeMax; omega) (fun _ => rfl)
      simp only [RunsAs, Decoder.call] at hr
      cases hx : posDec strict t st.data (st.total + off) with
      | error e =>
        rw [hx] at hr
        simp only at hr ⊢
        rw [hr]; rfl
      | ok x =>
        rw [hx] at hr
        obtain ⟨st', h4, h5, h6, h7, h8, _⟩ := hr
        simp only
        refine ⟨by omega, ?_⟩
        rw [h4, ok_bind]
        have hpop : st'.popFrame = .ok { st with pos := st.pos + 32 } := by
          simp only [Stream.popFrame, h6, Stream.seek]
          rw [if_neg (by omega)]
          congr 1
          refine stream_eq h5 rfl rfl ?_
          simp only [h7]; omega
        simp only [hpop, ok_bind, pure_eq_ok]
  · simp only [h1, h2, error_bind]

theorem wrap_runs {t : Ty} {d : Decoder} {strict : Bool} (h : DecGood t d strict)
    (fl : Flags) (st : Stream) (hl : st.data.length ≤ ssizeMax) (hp : st.pos ≤ ssizeMax) :
    ItemRuns (if t.dynamic then headTail d else d) fl t
      (posItem t.dynamic (posDec strict t st.data) st.data st.total) (headStep t) st := by
  cases hd : t.dynamic with
  | true =>
    simp only [if_true, headStep, hd]
    exact headTail_runs h fl st hl
  | false =>
    simp only [Bool.false_eq_true, if_false, headStep, hd]
    have := static_runs h hd fl st hl hp
    simpa only [ItemRuns, posItem, Bool.false_eq_true, if_false] using this

/-! ## Arrays -/

theorem checkPtrs_spec (base endOff : Nat) (n : Nat) (st : Stream) :
    (checkPtrs st.data base endOff n st.pos = .ok () ∧
      arrayCheckLoop base endOff n st = .ok { st with pos := st.pos + 32 * n }) ∨
    (∃ e, checkPtrs st.data base endOff n st.pos = .error e ∧
      arrayCheckLoop base endOff n st = .error e) := by
  induction n generalizing st with
  | zero => exact Or.inl ⟨rfl, rfl⟩
  | succ n ih =>
    simp only [checkPtrs, arrayCheckLoop, checkPtr]
    rcases decodeUint256_spec st with ⟨off, h1, h2, h3⟩ | ⟨h1, h2⟩
    · simp only [h1, h3, ok_bind]
      by_cases hb : base + off < endOff ∨ st.data.length ≤ base + off
      · rw [if_pos hb, if_pos hb]; exact Or.inr ⟨_, rfl, rfl⟩
      · rw [if_neg hb, if_neg hb]
        simp only [pure_eq_ok, ok_bind]
        rcases ih ⟨st.data, st.pos + 32, st.frames, st.total⟩ with ⟨h4, h5⟩ | ⟨e, h4, h5⟩
        · refine Or.inl ⟨h4, ?_⟩
          rw [h5]
          congr 2
          simp only; omega
        · exact Or.inr ⟨e, h4, h5⟩
    · exact Or.inr ⟨_, by rw [h1]; rfl, by rw [h2]; rfl⟩

/-- The result of a sequence of items. -/
theorem decodeN_spec {W : Decoder} {fl : Flags} {t : Ty} {f : Nat → PyM Val} {step : Nat}
    (n : Nat) (st : Stream) (hp : st.pos ≤ ssizeMax)
    (h : ∀ p, p ≤ ssizeMax → ItemRuns W fl t f step { st with pos := p }) :
    (∃ xs, posMany f step n st.pos = .ok xs ∧ st.pos + step * n ≤ ssizeMax ∧ xs.length = n ∧
      decodeN fl W n st = .ok (xs.map (toPy t), { st with pos := st.pos + step * n })) ∨
    (∃ e, posMany f step n st.pos = .error e ∧ decodeN fl W n st = .error e) := by
  induction n generalizing st with
  | zero => exact Or.inl ⟨[], rfl, by simpa using hp, rfl, by simp [decodeN]⟩
  | succ n ih =>
    have h0 := h st.pos hp
    simp only [ItemRuns] at h0
    simp only [posMany, decodeN]
    cases hx : f st.pos with
    | error e =>
      rw [hx] at h0
      exact Or.inr ⟨e, rfl, by simp only at h0; rw [h0]; rfl⟩
    | ok x =>
      rw [hx] at h0
      obtain ⟨h1, h2⟩ := h0
      have h2' : W.call fl st = .ok (toPy t x, { st with pos := st.pos + step }) := h2
      simp only [h2', ok_bind]
      rcases ih ⟨st.data, st.pos + step, st.frames, st.total⟩ h1 h with ⟨xs, h3, h4, h5, h6⟩ | ⟨e, h3, h4⟩
      · simp only at h3 h4 h6
        refine Or.inl ⟨x :: xs, by rw [h3]; rfl, ?_, by simp [h5], ?_⟩
        · rw [Nat.mul_succ]; omega
        · rw [h6, ok_bind, pure_eq_ok]
          rw [Nat.mul_succ, Nat.add_comm (step * n), ← Nat.add_assoc]
          rfl
      · exact Or.inr ⟨e, by simp only at h3; rw [h3]; rfl, by rw [h4]; rfl⟩

/-- The body shared by the two array decoders. -/
theorem arrayBody_spec {t : Ty} {item : Decoder} {fl : Flags} (h : DecGood t item true) (k : Nat)
    (st : Stream) (hl : st.data.length ≤ ssizeMax) (hp : st.pos ≤ ssizeMax)
    (htot : t.dynamic = true → st.total = st.pos) :
    (∃ xs, posSeq t.dynamic (posDec true t st.data) (headStep t) k st.data st.pos = .ok xs ∧
      st.pos + headStep t * k ≤ ssizeMax ∧ xs.length = k ∧
      (arrayValidatePointers (if t.dynamic then headTail item else item) k st >>=
        decodeN fl (if t.dynamic then headTail item else item) k) =
        .ok (xs.map (toPy t), { st with pos := st.pos + headStep t * k })) ∨
    (∃ e, posSeq t.dynamic (posDec true t st.data) (headStep t) k st.data st.pos = .error e ∧
      (arrayValidatePointers (if t.dynamic then headTail item else item) k st >>=
        decodeN fl (if t.dynamic then headTail item else item) k) = .error e) := by
  generalize hW : (if t.dynamic then headTail item else item) = W
  have hseq : posItem t.dynamic (posDec true t st.data) st.data st.pos =
      posItem t.dynamic (posDec true t st.data) st.data st.total := by
    funext q
    cases hd : t.dynamic with
    | true => rw [htot hd]
    | false => rfl
  have hN := decodeN_spec (W := W) (fl := fl) (t := t)
    (f := posItem t.dynamic (posDec true t st.data) st.data st.total) (step := headStep t) k st hp
    (fun p hpp => by rw [← hW]; exact wrap_runs h fl ⟨st.data, p, st.frames, st.total⟩ hl hpp)
  have hHT : W.isHeadTail = t.dynamic := by
    rw [← hW]
    cases hd : t.dynamic with
    | true => rfl
    | false => exact h.notHT
  clear hW
  simp only [posSeq, arrayValidatePointers, hHT, hseq]
  cases hd : t.dynamic with
  | false =>
    rw [hd] at hN
    simp only [Bool.false_eq_true, if_false, pure_eq_ok, ok_bind]
    exact hN
  | true =>
    rw [hd] at hN
    simp only [if_true]
    rcases checkPtrs_spec st.pos (st.pos + 32 * k) k st with ⟨h1, h2⟩ | ⟨e, h1, h2⟩
    · simp only [h1, h2, ok_bind, Stream.seek]
      rw [if_neg (by omega)]
      exact hN
    · exact Or.inr ⟨e, by rw [h1]; rfl, by rw [h2]; rfl⟩

theorem bind_assoc' {α β γ : Type} (x : PyM α) (f : α → PyM β) (g : β → PyM γ) :
    ((x >>= f) >>= g) = (x >>= fun a => f a >>= g) := by
  cases x <;> rfl

theorem sizedD_good {t : Ty} {k : Nat} {strict : Bool} (h : DecGood t (decOf t) true) :
    DecGood (.sized k t) (decOf (.sized k t)) strict where
  isDyn := rfl
  notHT := rfl
  size := rfl
  run fl st hl hp htot := by
    simp only [Ty.dynamic] at htot
    simp only [RunsAs, decOf, Decoder.call, sizedDec, sizedArrayDecode, posDec]
    rw [← bind_assoc']
    rcases arrayBody_spec (fl := fl) h k st hl hp htot with ⟨xs, h1, h2, h3, h4⟩ | ⟨e, h1, h2⟩
    · rw [h1, h4]
      refine ⟨_, rfl, rfl, rfl, rfl, h2, ?_⟩
      intro hd
      simp only [Ty.dynamic] at hd
      simp only [headStep, hd, Ty.size, Bool.false_eq_true, if_false]
      rw [Nat.mul_comm]
    · rw [h1, h2]; rfl

theorem dynD_good {t : Ty} {strict : Bool} (h : DecGood t (decOf t) true) :
    DecGood (.dyn t) (decOf (.dyn t)) strict where
  isDyn := rfl
  notHT := rfl
  size := rfl
  run fl st hl hp htot := by
    have htot := htot rfl
    simp only [RunsAs, decOf, Decoder.call, dynDec, dynamicArrayDecode, posDec]
    rcases decodeUint256_spec st with ⟨k, h1, h2, h3⟩ | ⟨h1, h2⟩
    · simp only [h1, h3, ok_bind, Stream.pushFrame, Stream.seekInFrame, Stream.seek, Nat.add_zero, htot]
      have hle : st.pos + 32 ≤ ssizeMax := by omega
      rw [if_neg (by omega), ok_bind, ← bind_assoc']
      rcases arrayBody_spec (fl := fl) h k
        ⟨st.data, st.pos + 32, (32, st.pos + 32) :: st.frames, st.pos + 32⟩ hl hle
        (fun _ => rfl) with ⟨xs, h4, h5, h6, h7⟩ | ⟨e, h4, h5⟩
      · simp only at h4
        rw [h4, h7]
        simp only [ok_bind, Stream.popFrame, Stream.seek]
        rw [if_neg (by omega)]
        refine ⟨_, rfl, rfl, rfl, ?_, hle, fun h => by cases h⟩
        show st.pos + 32 - 32 = st.pos
        omega
      · simp only at h4
        rw [h4, h5]
        rfl
    · rw [h1, h2]; rfl

/-! ## Tuples -/

theorem wrapDyn_eq {t : Ty} {d : Decoder} {strict : Bool} (h : DecGood t d strict) :
    wrapDyn d = if t.dynamic then headTail d else d := by
  simp only [wrapDyn, Decoder.dyn, h.isDyn, Option.getD_some]

theorem wrapDyn_isHT {t : Ty} {d : Decoder} {strict : Bool} (h : DecGood t d strict) :
    (wrapDyn d).isHeadTail = t.dynamic := by
  rw [wrapDyn_eq h]
  cases hd : t.dynamic with
  | true => rfl
  | false => exact h.notHT

theorem wrapDyn_size {t : Ty} {d : Decoder} {strict : Bool} (h : DecGood t d strict) :
    (wrapDyn d).arraySize.getD 1 = headWords t := by
  rw [wrapDyn_eq h, headWords]
  cases hd : t.dynamic with
  | true => rfl
  | false => exact h.size

theorem lenOfHead_eq {ts : List Ty} {ds : List Decoder} {strict : Bool}
    (h : List.Forall₂ (fun t d => DecGood t d strict) ts ds) :
    lenOfHead (ds.map wrapDyn) = headWordsAll ts := by
  simp only [lenOfHead, headWordsAll]
  induction h with
  | nil => rfl
  | cons h1 _ ih =>
    simp only [List.map_cons, List.sum_cons, wrapDyn_size h1, ih]

theorem posDec_static_strict {t : Ty} (hd : t.dynamic = false) (s s' : Bool) (d : Bytes) (p : Nat) :
    posDec s t d p = posDec s' t d p := by
  cases t <;> first | rfl | (simp [Ty.dynamic] at hd; done) | (simp only [posDec])

theorem tupleCheckLoop_spec {ts : List Ty} {ds : List Decoder} {strict : Bool}
    (h : List.Forall₂ (fun t d => DecGood t d strict) ts ds) (fl : Flags) (base endOff : Nat)
    (st : Stream) (hl : st.data.length ≤ ssizeMax) (hp : st.pos ≤ ssizeMax) :
    (∃ p, checkAll ts st.data base endOff st.pos = .ok () ∧
      tupleCheckLoop fl base endOff (ds.map wrapDyn) st = .ok { st with pos := p }) ∨
    (∃ e, checkAll ts st.data base endOff st.pos = .error e ∧
      tupleCheckLoop fl base endOff (ds.map wrapDyn) st = .error e) := by
  induction h generalizing st with
  | nil => exact Or.inl ⟨st.pos, rfl, rfl⟩
  | @cons t d ts ds h1 _ ih =>
    simp only [List.map_cons, tupleCheckLoop, wrapDyn_isHT h1, checkAll]
    cases hd : t.dynamic with
    | true =>
      simp only [if_true, checkHead, checkPtr, bind_assoc', headStep, hd]
      rcases decodeUint256_spec st with ⟨off, h2, h3, h4⟩ | ⟨h2, h3⟩
      · simp only [h2, h4, ok_bind]
        by_cases hb : base + off < endOff ∨ st.data.length ≤ base + off
        · rw [if_pos hb, if_pos hb]; exact Or.inr ⟨_, rfl, rfl⟩
        · rw [if_neg hb, if_neg hb]
          simp only [pure_eq_ok, ok_bind]
          exact ih ⟨st.data, st.pos + 32, st.frames, st.total⟩ hl (by simp only; omega)
      · exact Or.inr ⟨_, by rw [h2]; rfl, by rw [h3]; rfl⟩
    | false =>
      simp only [Bool.false_eq_true, if_false, checkHead, headStep, hd, bind_assoc']
      have hr := static_runs h1 hd fl st hl hp
      simp only [ItemRuns] at hr
      rw [posDec_static_strict hd strict true] at hr
      have hw : wrapDyn d = d := by rw [wrapDyn_eq h1, hd]; rfl
      rw [hw]
      cases hx : posDec true t st.data st.pos with
      | error e =>
        rw [hx] at hr
        simp only at hr
        exact Or.inr ⟨e, rfl, by rw [hr]; rfl⟩
      | ok x =>
        rw [hx] at hr
        obtain ⟨h2, h3⟩ := hr
        simp only [h3, pure_eq_ok, ok_bind]
        exact ih ⟨st.data, st.pos + t.size, st.frames, st.total⟩ hl h2

theorem decodeEach_spec {ts : List Ty} {ds : List Decoder} {strict : Bool}
    (h : List.Forall₂ (fun t d => DecGood t d strict) ts ds) (fl : Flags)
    (st : Stream) (hl : st.data.length ≤ ssizeMax) (hp : st.pos ≤ ssizeMax) :
    (∃ xs, posAll strict ts st.data st.total st.pos = .ok xs ∧
      st.pos + (ts.map headStep).sum ≤ ssizeMax ∧
      decodeEach fl (ds.map wrapDyn) st =
        .ok (toPyAll ts xs, { st with pos := st.pos + (ts.map headStep).sum })) ∨
    (∃ e, posAll strict ts st.data st.total st.pos = .error e ∧
      decodeEach fl (ds.map wrapDyn) st = .error e) := by
  induction h generalizing st with
  | nil => exact Or.inl ⟨[], rfl, by simpa using hp, by simp [decodeEach, toPyAll]⟩
  | @cons t d ts ds h1 _ ih =>
    simp only [List.map_cons, decodeEach, posAll, List.sum_cons]
    have hr := wrap_runs h1 fl st hl hp
    simp only [ItemRuns] at hr
    rw [← wrapDyn_eq h1] at hr
    cases hx : posItem t.dynamic (posDec strict t st.data) st.data st.total st.pos with
    | error e =>
      rw [hx] at hr
      simp only at hr
      exact Or.inr ⟨e, rfl, by rw [hr]; rfl⟩
    | ok x =>
      rw [hx] at hr
      obtain ⟨h2, h3⟩ := hr
      simp only [h3, ok_bind]
      rcases ih ⟨st.data, st.pos + headStep t, st.frames, st.total⟩ hl h2 with ⟨xs, h4, h5, h6⟩ | ⟨e, h4, h5⟩
      · simp only at h4 h5 h6
        refine Or.inl ⟨x :: xs, by rw [h4]; rfl, by omega, ?_⟩
        rw [h6, ok_bind, pure_eq_ok]
        rw [Nat.add_assoc]
        rfl
      · exact Or.inr ⟨e, by simp only at h4; rw [h4]; rfl, by rw [h5]; rfl⟩

/-- `TupleDecoder.decode` at a position. -/
theorem tupleDecode_spec {ts : List Ty} {ds : List Decoder} {strict : Bool}
    (h : List.Forall₂ (fun t d => DecGood t d strict) ts ds) (fl : Flags)
    (st : Stream) (hl : st.data.length ≤ ssizeMax) (hp : st.pos ≤ ssizeMax) :
    (∃ xs, (checkAll ts st.data st.pos (st.pos + 32 * headWordsAll ts) st.pos >>= fun _ =>
        posAll strict ts st.data st.total st.pos) = .ok xs ∧
      st.pos + (ts.map headStep).sum ≤ ssizeMax ∧
      tupleDecode fl (ds.map wrapDyn) st =
        .ok (.tuple (toPyAll ts xs), { st with pos := st.pos + (ts.map headStep).sum })) ∨
    (∃ e, (checkAll ts st.data st.pos (st.pos + 32 * headWordsAll ts) st.pos >>= fun _ =>
        posAll strict ts st.data st.total st.pos) = .error e ∧
      tupleDecode fl (ds.map wrapDyn) st = .error e) := by
  simp only [tupleDecode, tupleValidatePointers, lenOfHead_eq h]
  rcases tupleCheckLoop_spec h fl st.pos (st.pos + 32 * headWordsAll ts) st hl hp with
    ⟨p, h1, h2⟩ | ⟨e, h1, h2⟩
  · simp only [h1, h2, ok_bind, Stream.seek]
    rw [if_neg (by omega)]
    simp only [ok_bind]
    rcases decodeEach_spec h fl st hl hp with ⟨xs, h3, h4, h5⟩ | ⟨e, h3, h4⟩
    · exact Or.inl ⟨xs, h3, h4, by rw [h5]; rfl⟩
    · exact Or.inr ⟨e, h3, by rw [h4]; rfl⟩
  · exact Or.inr ⟨e, by rw [h1]; rfl, by rw [h2]; rfl⟩

theorem sizes_eq {ts : List Ty} (h : Ty.anyDynamic ts = false) :
    (ts.map headStep).sum = Ty.sizes ts := by
  induction ts with
  | nil => rfl
  | cons t ts ih =>
    simp only [Ty.anyDynamic, Bool.or_eq_false_iff] at h
    simp [headStep, h.1, ih h.2, Ty.sizes]

theorem posAll_base {ts : List Ty} (h : Ty.anyDynamic ts = false) (strict : Bool) (d : Bytes)
    (base base' p : Nat) : posAll strict ts d base p = posAll strict ts d base' p := by
  induction ts generalizing p with
  | nil => rfl
  | cons t ts ih =>
    simp only [Ty.anyDynamic, Bool.or_eq_false_iff] at h
    simp only [posAll, h.1, posItem, Bool.false_eq_true, if_false, ih h.2]

theorem anyDyn_wrap {ts : List Ty} {ds : List Decoder} {strict : Bool}
    (h : List.Forall₂ (fun t d => DecGood t d strict) ts ds) :
    (ds.map wrapDyn).any (·.dyn) = Ty.anyDynamic ts := by
  induction h with
  | nil => rfl
  | @cons t d ts ds h1 _ ih =>
    simp only [List.map_cons, List.any_cons, ih, Ty.anyDynamic]
    congr 1
    rw [wrapDyn_eq h1]
    cases hd : t.dynamic with
    | true => rfl
    | false => simp only [Decoder.dyn, Bool.false_eq_true, if_false, h1.isDyn, hd, Option.getD_some]

theorem tupleD_good {ts : List Ty} {strict : Bool}
    (h : List.Forall₂ (fun t d => DecGood t d true) ts (decsOf ts)) :
    DecGood (.tuple ts) (decOf (.tuple ts)) strict where
  isDyn := by simp only [decOf, mkTupleD, anyDyn_wrap h, Ty.dynamic]
  notHT := rfl
  size := rfl
  run fl st hl hp htot := by
    simp only [Ty.dynamic] at htot
    simp only [RunsAs, decOf, Decoder.call, mkTupleD, posDec]
    have hbase : posAll true ts st.data st.pos st.pos = posAll true ts st.data st.total st.pos := by
      cases hd : Ty.anyDynamic ts with
      | true => rw [htot hd]
      | false => exact posAll_base hd _ _ _ _ _
    rw [hbase, ← bind_assoc']
    rcases tupleDecode_spec h fl st hl hp with ⟨xs, h1, h2, h3⟩ | ⟨e, h1, h2⟩
    · rw [h1, h3]
      refine ⟨_, rfl, rfl, rfl, rfl, h2, ?_⟩
      intro hd
      simp only [Ty.dynamic] at hd
      simp only [sizes_eq hd, Ty.size]
    · rw [h1, h2]; rfl

/-- The decoder object of every type does what `posDec` does. -/
theorem decOf_good (t : Ty) : DecGood t (decOf t) true := by
  refine Spec.Ty.ind (P := fun t => DecGood t (decOf t) true) ?_ ?_ ?_ ?_ ?_ ?_ ?_ ?_ ?_ ?_ ?_ ?_ t
  · intro n; exact uintD_good n _
  · intro n; exact sintD_good n _
  · exact addressD_good _
  · exact boolD_good _
  · intro m n; exact ufixedD_good m n _
  · intro m n; exact sfixedD_good m n _
  · intro m; exact bytesMD_good m _
  · exact bytesD_good true
  · exact stringD_good true
  · intro k t h; exact sizedD_good h
  · intro t h; exact dynD_good h
  · intro ts h
    refine tupleD_good ?_
    induction ts with
    | nil => exact .nil
    | cons t ts ih => exact .cons (h t (by simp)) (ih fun t ht => h t (by simp [ht]))

end EthAbi
