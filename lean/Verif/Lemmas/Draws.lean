import Verif.Lemmas.Strategies
import Verif.Lemmas.ToPy
import Verif.Spec.Strategies

/-! # What the strategies of the types draw -/
namespace EthAbi
open Spec

/-! ## Checksummed addresses -/

theorem upperCP_hexDigit (n : Nat) : lowerCP (upperCP (hexDigit n)) = hexDigit n ∧
    hexVal (upperCP (hexDigit n)) = some (n % 16) := by
  have := Nat.mod_lt n (show 0 < 16 by omega)
  have hv : lowerCP (upperCP (hexDigit n)) = hexDigit n := by
    unfold hexDigit
    split
    · next h =>
      have h1 : upperCP ⟨48 + n % 16, by omega⟩ = ⟨48 + n % 16, by omega⟩ := by
        unfold upperCP; rw [dif_neg]; simp only; omega
      rw [h1]
      unfold lowerCP; rw [dif_neg]; simp only; omega
    · next h =>
      have h1 : upperCP ⟨87 + n % 16, by omega⟩ = ⟨55 + n % 16, by omega⟩ := by
        unfold upperCP
        rw [dif_pos (by simp only; omega)]
        simp only [Fin.mk.injEq]; omega
      rw [h1]
      unfold lowerCP
      rw [dif_pos (by simp only; omega)]
      simp only [Fin.mk.injEq]; omega
  exact ⟨hv, by rw [← hexVal_lowerCP, hv, hexVal_hexDigit]⟩

theorem lowerCP_hexDigit (n : Nat) : lowerCP (hexDigit n) = hexDigit n := by
  unfold lowerCP
  rw [dif_neg (hexDigit_not_upper n)]

theorem checksum_lower (hash : Nat → Nat) (ds : PyStr) (h : ∀ c ∈ ds, ∃ n, c = hexDigit n) :
    (checksumDigits hash ds).map lowerCP = ds := by
  unfold checksumDigits
  apply List.ext_getElem
  · simp
  · intro i h1 h2
    simp only [List.getElem_map, List.getElem_mapIdx]
    obtain ⟨n, hn⟩ := h _ (List.getElem_mem (l := ds) (n := i) h2)
    rw [hn]
    split
    · exact (upperCP_hexDigit n).1
    · exact lowerCP_hexDigit n

theorem checksum_hex (hash : Nat → Nat) (ds : PyStr) (h : ∀ c ∈ ds, ∃ n, c = hexDigit n) :
    ∀ c ∈ checksumDigits hash ds, (hexVal c).isSome = true := by
  intro c hc
  have : lowerCP c ∈ ds := by
    rw [← checksum_lower hash ds h]
    exact List.mem_map_of_mem hc
  obtain ⟨n, hn⟩ := h _ this
  rw [← hexVal_lowerCP, hn, hexVal_hexDigit]
  rfl

theorem toChecksum_address [Ext] {b : Bytes} (hb : b.length = 20) :
    address? (.str (toChecksum (zeroX ++ encodeHexDigits b))) = some b := by
  have hds : ∀ c ∈ encodeHexDigits b, ∃ n, c = hexDigit n := fun c hc => mem_encodeHexDigits hc
  generalize hk : Ext.keccakDigit (encodeHexDigits b) = hash
  have hc : toChecksum (zeroX ++ encodeHexDigits b) = zeroX ++ checksumDigits hash (encodeHexDigits b) := by
    rw [toChecksum, remove0x_zeroX, hk]
  have hl := checksum_lower hash _ hds
  have hx : isHexAddress (zeroX ++ checksumDigits hash (encodeHexDigits b)) = true := by
    simp only [isHexAddress, remove0x_zeroX, Bool.and_eq_true, List.all_eq_true, beq_iff_eq]
    refine ⟨?_, checksum_hex hash _ hds⟩
    simp [checksumDigits, encodeHexDigits_length, hb]
  have hn : normalizedHex (zeroX ++ checksumDigits hash (encodeHexDigits b)) = zeroX ++ encodeHexDigits b := by
    rw [normalizedHex, remove0x_zeroX, hl]
  have ha : isAddress (.str (zeroX ++ checksumDigits hash (encodeHexDigits b))) = true := by
    simp only [isAddress, asText?, hx, if_true, isChecksumAddress, hn, hc, beq_self_eq_true, Bool.and_true]
    split <;> rfl
  rw [hc, address?, if_pos ha, remove0x_zeroX, ← decodeHexDigits_lower, hl, decodeHexDigits_encode]

/-! ## Text -/

theorem utf8Char_isSome {c : CodePoint} : (utf8Char c).isSome = true ↔ ¬ (0xD800 ≤ c.val ∧ c.val ≤ 0xDFFF) := by
  unfold utf8Char
  simp only
  constructor
  · intro h hc
    rw [if_neg (by omega), if_neg (by omega), if_pos hc] at h
    cases h
  · intro h
    split
    · rfl
    split
    · rfl
    first
    | (rw [if_neg h]; split <;> rfl)
    | (split <;> rfl)

theorem utf8Encode_isSome {s : PyStr} :
    (utf8Encode? s).isSome = true ↔ ∀ c ∈ s, ¬ (0xD800 ≤ c.val ∧ c.val ≤ 0xDFFF) := by
  induction s with
  | nil => simp [utf8Encode?]
  | cons c cs ih =>
    rw [List.forall_mem_cons, ← ih, ← utf8Char_isSome]
    rw [utf8Encode?]
    cases utf8Char c <;> cases utf8Encode? cs <;> simp

/-! ## Draws -/

theorem drawAll_ok (vs : List PyVal) : Strategy.drawAll (vs.map .ok) = .ok vs := by
  induction vs with
  | nil => rfl
  | cons v vs ih => rw [List.map_cons, Strategy.drawAll, ih]; rfl

theorem decimal_draw [Ext] {m n : Nat} (hm : m ≤ 256) (hn : n ≤ 80) {i : Int} (h1 : -2 ^ m ≤ i)
    (h2 : i ≤ 2 ^ m) : scaleDraw n (.dec (.fin i 0)) = .ok (.dec (.fin i (-(n : Int)))) := by
  rw [scaleDraw, scalePlaces, tenPowInt_neg (by omega), ok_bind, mul_tenPowNeg hm hn h1 h2]
  rfl

theorem onGrid_neg (n : Nat) (i : Int) : onGrid? n (i, -(n : Int)) = some i := by
  simp [onGrid?]

/-- Every draw of the strategy of a type is a value that stands for a value of the type. -/
theorem draw_denotes [Ext] (t : Ty) : t.Valid → ∀ o, stratOf t o → ∃ v x, o = .ok v ∧ denote t v = some x := by
  refine Spec.Ty.ind (P := fun t => t.Valid → ∀ o, stratOf t o → ∃ v x, o = .ok v ∧ denote t v = some x)
    ?_ ?_ ?_ ?_ ?_ ?_ ?_ ?_ ?_ ?_ ?_ ?_ t
  · rintro n _ o ⟨i, h1, h2, rfl⟩
    exact ⟨_, _, rfl, by rw [denote, if_pos ⟨h1, by omega⟩]⟩
  · rintro n _ o ⟨i, h1, h2, rfl⟩
    exact ⟨_, _, rfl, by rw [denote, if_pos ⟨h1, by omega⟩]⟩
  · rintro _ o ⟨o', ⟨b, h1, h2, rfl⟩, rfl⟩
    have hb : b.length = 20 := by omega
    refine ⟨.str (toChecksum (zeroX ++ encodeHexDigits b)), .raw b, ?_, ?_⟩
    · rw [ok_bind, checksumDraw, toChecksumAddress, toNormalizedAddress, if_pos hb]
      rfl
    · rw [denote, toChecksum_address hb]; rfl
  · rintro _ o ⟨b, rfl⟩
    exact ⟨_, _, rfl, rfl⟩
  · rintro m n ⟨⟨hm1, hm2, hm3⟩, hn1, hn2⟩ o ⟨o', ⟨i, h1, h2, rfl⟩, rfl⟩
    have hp : (0 : Int) < 2 ^ m := by positivity
    refine ⟨.dec (.fin i (-(n : Int))), .num i, ?_, ?_⟩
    · rw [ok_bind, decimal_draw hm2 hn2 (by omega) (by omega)]
    · have hf : fitsU m i := ⟨h1, by omega⟩
      simp only [denote, number?, Option.bind_eq_bind, Option.bind_some, onGrid_neg, if_pos hf]
  · rintro m n ⟨⟨hm1, hm2, hm3⟩, hn1, hn2⟩ o ⟨o', ⟨i, h1, h2, rfl⟩, rfl⟩
    have hp : (2 : Int) ^ (m - 1) ≤ 2 ^ m := pow_le_pow_right₀ (by norm_num) (by omega)
    refine ⟨.dec (.fin i (-(n : Int))), .num i, ?_, ?_⟩
    · rw [ok_bind, decimal_draw hm2 hn2 (by omega) (by omega)]
    · have hf : fitsS m i := ⟨h1, by omega⟩
      simp only [denote, number?, Option.bind_eq_bind, Option.bind_some, onGrid_neg, if_pos hf]
  · rintro m _ o ⟨b, h1, h2, rfl⟩
    refine ⟨.bytes b, .raw (b ++ List.replicate (m - b.length) 0), rfl, ?_⟩
    simp [denote, asBytes?, h2]
  · rintro _ o ⟨b, h1, h2, rfl⟩
    exact ⟨_, _, rfl, rfl⟩
  · rintro _ o ⟨s, h, rfl⟩
    exact ⟨_, _, rfl, by rw [denote, if_pos (utf8Encode_isSome.2 h)]⟩
  · rintro k t ih ⟨_, hv⟩ o ⟨os, h1, h2, h3, rfl⟩
    replace h2 := h2 k rfl
    obtain ⟨vs, xs, hvs, hxs⟩ : ∃ vs xs, os = vs.map .ok ∧ List.Forall₂ (fun v x => denote t v = some x) vs xs := by
      clear h1 h2
      induction os with
      | nil => exact ⟨[], [], rfl, .nil⟩
      | cons o os ih' =>
        obtain ⟨v, x, rfl, hx⟩ := ih hv o (h3 o (by simp))
        obtain ⟨vs, xs, rfl, hxs⟩ := ih' fun o' ho' => h3 o' (by simp [ho'])
        exact ⟨v :: vs, x :: xs, rfl, .cons hx hxs⟩
    subst hvs
    rw [List.length_map] at h1 h2
    refine ⟨.list vs, .seq xs, by rw [drawAll_ok]; rfl, denote_sized.2 ⟨vs, xs, rfl, hxs, by omega, rfl⟩⟩
  · rintro t ih hv o ⟨os, h1, h2, h3, rfl⟩
    obtain ⟨vs, xs, hvs, hxs⟩ : ∃ vs xs, os = vs.map .ok ∧ List.Forall₂ (fun v x => denote t v = some x) vs xs := by
      clear h1 h2
      induction os with
      | nil => exact ⟨[], [], rfl, .nil⟩
      | cons o os ih' =>
        obtain ⟨v, x, rfl, hx⟩ := ih hv o (h3 o (by simp))
        obtain ⟨vs, xs, rfl, hxs⟩ := ih' fun o' ho' => h3 o' (by simp [ho'])
        exact ⟨v :: vs, x :: xs, rfl, .cons hx hxs⟩
    subst hvs
    refine ⟨.list vs, .seq xs, by rw [drawAll_ok]; rfl, denote_dyn.2 ⟨vs, xs, rfl, hxs, rfl⟩⟩
  · rintro ts ih hv0 o ⟨os, h, rfl⟩
    have hv := Ty.allValid_iff.1 hv0.2
    clear hv0
    rw [stratsOf_map] at h
    obtain ⟨vs, xs, hvs, hxs⟩ : ∃ vs xs, os = vs.map .ok ∧ denoteAll ts vs = some xs := by
      induction ts generalizing os with
      | nil => cases h; exact ⟨[], [], rfl, rfl⟩
      | cons t ts ih' =>
        cases h with
        | cons h1 h2 =>
          obtain ⟨v, x, rfl, hx⟩ := ih t (by simp) (hv t (by simp)) _ h1
          obtain ⟨vs, xs, rfl, hxs⟩ := ih' (fun t ht => ih t (by simp [ht])) _ h2 (fun t ht => hv t (by simp [ht]))
          exact ⟨v :: vs, x :: xs, rfl, denoteAll_cons.2 ⟨x, xs, hx, hxs, rfl⟩⟩
    subst hvs
    exact ⟨.tuple vs, .seq xs, by rw [drawAll_ok]; rfl, denote_tuple.2 ⟨vs, xs, rfl, hxs, rfl⟩⟩

theorem draw_list [Ext] {t : Ty} (ih : t.Valid → ∀ x, Val.Of t x → ShortBytes t x →
      ∃ v, stratOf t (.ok v) ∧ denote t v = some x) (hv : t.Valid) (xs : List Val)
    (h1 : ∀ x ∈ xs, Val.Of t x) (h2 : ∀ x ∈ xs, ShortBytes t x) :
    ∃ vs, (∀ o ∈ vs.map Except.ok, stratOf t o) ∧ List.Forall₂ (fun v x => denote t v = some x) vs xs := by
  induction xs with
  | nil => exact ⟨[], by simp, .nil⟩
  | cons x xs ih' =>
    obtain ⟨v, hv1, hv2⟩ := ih hv x (h1 x (by simp)) (h2 x (by simp))
    obtain ⟨vs, hs1, hs2⟩ := ih' (fun y hy => h1 y (by simp [hy])) (fun y hy => h2 y (by simp [hy]))
    refine ⟨v :: vs, ?_, .cons hv2 hs2⟩
    intro o ho
    rw [List.map_cons] at ho
    rcases List.mem_cons.1 ho with rfl | ho
    · exact hv1
    · exact hs1 o ho

/-- Every value of a type can be drawn from its strategy, except long `bytes`. -/
theorem draw_covers [Ext] (t : Ty) : t.Valid → ∀ x, Val.Of t x → ShortBytes t x →
    ∃ v, stratOf t (.ok v) ∧ denote t v = some x := by
  refine Spec.Ty.ind (P := fun t => t.Valid → ∀ x, Val.Of t x → ShortBytes t x →
      ∃ v, stratOf t (.ok v) ∧ denote t v = some x)
    ?_ ?_ ?_ ?_ ?_ ?_ ?_ ?_ ?_ ?_ ?_ ?_ t
  · intro n _ x h hs
    cases x <;> simp only [Val.Of] at h
    exact ⟨.int _, ⟨_, h.1, by have := h.2; omega, rfl⟩, by rw [denote, if_pos h]⟩
  · intro n _ x h hs
    cases x <;> simp only [Val.Of] at h
    exact ⟨.int _, ⟨_, h.1, by have := h.2; omega, rfl⟩, by rw [denote, if_pos h]⟩
  · intro _ x h hs
    rcases x with _ | b | _ | _ <;> simp only [Val.Of] at h
    refine ⟨.str (toChecksum (zeroX ++ encodeHexDigits b)), ⟨_, ⟨b, by omega, by omega, rfl⟩, ?_⟩, ?_⟩
    · rw [ok_bind, checksumDraw, toChecksumAddress, toNormalizedAddress, if_pos h]
      rfl
    · rw [denote, toChecksum_address h]; rfl
  · intro _ x h hs
    cases x <;> simp only [Val.Of] at h
    rcases h with rfl | rfl
    · exact ⟨.bool false, ⟨_, rfl⟩, rfl⟩
    · exact ⟨.bool true, ⟨_, rfl⟩, rfl⟩
  · rintro m n ⟨⟨hm1, hm2, hm3⟩, hn1, hn2⟩ x h hs
    rcases x with i | _ | _ | _ <;> simp only [Val.Of] at h
    obtain ⟨h1, h2⟩ := h
    refine ⟨.dec (.fin i (-(n : Int))), ⟨_, ⟨i, h1, by omega, rfl⟩, ?_⟩, ?_⟩
    · rw [ok_bind, decimal_draw hm2 hn2 (by have : (0 : Int) < 2 ^ m := by positivity
                                            omega) (by omega)]
    · have hf : fitsU m i := ⟨h1, by omega⟩
      simp only [denote, number?, Option.bind_eq_bind, Option.bind_some, onGrid_neg, if_pos hf]
  · rintro m n ⟨⟨hm1, hm2, hm3⟩, hn1, hn2⟩ x h hs
    rcases x with i | _ | _ | _ <;> simp only [Val.Of] at h
    obtain ⟨h1, h2⟩ := h
    have hp : (2 : Int) ^ (m - 1) ≤ 2 ^ m := pow_le_pow_right₀ (by norm_num) (by omega)
    refine ⟨.dec (.fin i (-(n : Int))), ⟨_, ⟨i, h1, by omega, rfl⟩, ?_⟩, ?_⟩
    · rw [ok_bind, decimal_draw hm2 hn2 (by omega) (by omega)]
    · have hf : fitsS m i := ⟨h1, by omega⟩
      simp only [denote, number?, Option.bind_eq_bind, Option.bind_some, onGrid_neg, if_pos hf]
  · intro m _ x h hs
    rcases x with _ | b | _ | _ <;> simp only [Val.Of] at h
    exact ⟨.bytes b, ⟨b, by omega, by omega, rfl⟩, by simp [denote, asBytes?, h]⟩
  · intro _ x h hs
    rcases x with _ | b | _ | _ <;> simp only [Val.Of] at h
    exact ⟨.bytes b, ⟨b, by omega, by simpa [ShortBytes] using hs, rfl⟩, rfl⟩
  · intro _ x h hs
    cases x <;> simp only [Val.Of] at h
    exact ⟨.str _, ⟨_, utf8Encode_isSome.1 h, rfl⟩, by rw [denote, if_pos h]⟩
  · rintro k t ih ⟨_, hv⟩ x h hs
    rcases x with _ | _ | _ | xs <;> simp only [Val.Of] at h
    obtain ⟨vs, h1, h2⟩ := draw_list ih hv xs h.2 (by simpa [ShortBytes] using hs)
    have hl := h2.length_eq
    refine ⟨.list vs, ⟨vs.map .ok, by simp [hl, h.1], ?_, h1, by rw [drawAll_ok]; rfl⟩,
      denote_sized.2 ⟨vs, xs, rfl, h2, hl.trans h.1, rfl⟩⟩
    intro n hn
    cases hn
    simp [hl, h.1]
  · rintro t ih hv x h hs
    rcases x with _ | _ | _ | xs <;> simp only [Val.Of] at h
    obtain ⟨vs, h1, h2⟩ := draw_list ih hv xs h (by simpa [ShortBytes] using hs)
    exact ⟨.list vs, ⟨vs.map .ok, by simp, fun n hn => (by cases hn), h1, by rw [drawAll_ok]; rfl⟩,
      denote_dyn.2 ⟨vs, xs, rfl, h2, rfl⟩⟩
  · rintro ts ih hv0 x h hs
    have hv := Ty.allValid_iff.1 hv0.2
    clear hv0
    rcases x with _ | _ | _ | xs <;> simp only [Val.Of] at h
    replace hs : ShortBytesAll ts xs := by simpa [ShortBytes] using hs
    obtain ⟨vs, h1, h2⟩ : ∃ vs, List.Forall₂ (fun S o => S o) (ts.map stratOf) (vs.map .ok) ∧
        denoteAll ts vs = some xs := by
      induction ts generalizing xs with
      | nil =>
        cases xs with
        | nil => exact ⟨[], .nil, rfl⟩
        | cons _ _ => simp [Val.OfAll] at h
      | cons t ts ih' =>
        cases xs with
        | nil => simp [Val.OfAll] at h
        | cons x xs =>
          simp only [Val.OfAll] at h
          simp only [ShortBytesAll] at hs
          obtain ⟨v, hv1, hv2⟩ := ih t (by simp) (hv t (by simp)) x h.1 hs.1
          obtain ⟨vs, hs1, hs2⟩ := ih' (fun t ht => ih t (by simp [ht])) (fun t ht => hv t (by simp [ht])) xs h.2 hs.2
          exact ⟨v :: vs, .cons hv1 hs1, denoteAll_cons.2 ⟨x, xs, hv2, hs2, rfl⟩⟩
    refine ⟨.tuple vs, ⟨vs.map .ok, ?_, by rw [drawAll_ok]; rfl⟩, denote_tuple.2 ⟨vs, xs, rfl, h2, rfl⟩⟩
    rw [stratsOf_map]; exact h1

end EthAbi
