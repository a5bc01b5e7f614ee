import Verif.Lemmas.Cost
import Verif.Lemmas.EncCost

/-! # How deep the calls are nested -/
namespace EthAbi
open Spec

theorem nesting_le_all {t : Ty} {ts : List Ty} (h : t ∈ ts) : nesting t ≤ nestingAll ts := by
  induction ts with
  | nil => cases h
  | cons u ts ih =>
    simp only [nestingAll]
    rcases List.mem_cons.1 h with rfl | h
    · exact Nat.le_max_left _ _
    · exact Nat.le_trans (ih h) (Nat.le_max_right _ _)

theorem allValid_mem {t : Ty} {ts : List Ty} (hv : Ty.AllValid ts) (h : t ∈ ts) : t.Valid := by
  induction ts with
  | nil => cases h
  | cons u ts ih =>
    rcases List.mem_cons.1 h with rfl | h
    · exact hv.1
    · exact ih hv.2 h

namespace Counted

/-- The calls of an object are nested at most `B` deep. -/
def Flat (B : Nat) (c : Counted) : Prop := ∀ fl st, c.deep fl st ≤ B

theorem wrapDyn_flat {B : Nat} {c : Counted} (hB : 1 ≤ B) (h : Flat B c) : Flat (B + 1) (wrapDyn c) := by
  intro fl st
  unfold wrapDyn
  split
  · simp only [headTail]
    have : after (decodeUint256 st) (fun x => after (x.2.pushFrame x.1) fun st => c.deep fl st) ≤ B :=
      after_le fun _ _ => after_le fun st2 _ => h fl st2
    have := Nat.max_le.2 ⟨hB, this⟩
    omega
  · exact Nat.le_succ_of_le (h fl st)

theorem check_flat {B : Nat} (hB : 1 ≤ B) {cs : List Counted} (h : ∀ c ∈ cs, Flat B c) {fl : Flags} {a e : Nat}
    {st : Stream} : checkDepth fl a e cs st ≤ B := by
  induction cs generalizing st with
  | nil => exact Nat.zero_le _
  | cons c cs ih =>
    simp only [checkDepth]
    refine Nat.max_le.2 ⟨?_, after_le fun st' _ => ih fun x hx => h x (by simp [hx])⟩
    split
    · exact hB
    · exact h c (by simp) fl st

theorem each_flat {B : Nat} {cs : List Counted} (h : ∀ c ∈ cs, Flat B c) {fl : Flags} {st : Stream} :
    eachDepth fl cs st ≤ B := by
  induction cs generalizing st with
  | nil => exact Nat.zero_le _
  | cons c cs ih =>
    simp only [eachDepth]
    exact Nat.max_le.2 ⟨h c (by simp) fl st, after_le fun _ _ => ih fun x hx => h x (by simp [hx])⟩

theorem tuple_flat {B : Nat} (hB : 1 ≤ B) {cs : List Counted} (h : ∀ c ∈ cs, Flat B c) {fl : Flags} {st : Stream} :
    tupleDepth fl (cs.map wrapDyn) st ≤ B + 2 := by
  have hw : ∀ c ∈ cs.map wrapDyn, Flat (B + 1) c := by
    intro c hc
    obtain ⟨x, hx, rfl⟩ := List.mem_map.1 hc
    exact wrapDyn_flat hB (h x hx)
  unfold tupleDepth
  have h1 := check_flat (by omega) hw (fl := fl) (a := st.pos)
    (e := st.pos + 32 * lenOfHead ((cs.map wrapDyn).map (·.dec))) (st := st)
  have h2 : after (tupleValidatePointers fl ((cs.map wrapDyn).map (·.dec)) st)
      (fun st => eachDepth fl (cs.map wrapDyn) st) ≤ B + 1 := after_le fun _ _ => each_flat hw
  have := Nat.max_le.2 ⟨h1, h2⟩
  omega

theorem n_flat {B : Nat} {c : Counted} (h : Flat B c) {fl : Flags} {n : Nat} {st : Stream} :
    nDepth fl c n st ≤ B := by
  induction n generalizing st with
  | zero => exact Nat.zero_le _
  | succ n ih =>
    simp only [nDepth]
    exact Nat.max_le.2 ⟨h fl st, after_le fun _ _ => ih⟩

theorem array_flat {B : Nat} (hB : 1 ≤ B) {c : Counted} (h : Flat B c) {fl : Flags} {n : Nat} {st : Stream} :
    arrayDepth fl (wrapDyn c) n st ≤ B + 1 := by
  unfold arrayDepth
  refine Nat.max_le.2 ⟨?_, after_le fun _ _ => n_flat (wrapDyn_flat hB h)⟩
  split
  · exact Nat.le_trans (Nat.min_le_left _ _) (by omega)
  · exact Nat.zero_le _

theorem ofTy_flat (t : Ty) : Flat (2 * nesting t + 2) (ofTy t) := by
  induction t using Ty.ind with
  | sized k t ih =>
    intro fl st
    have := array_flat (by omega) ih (fl := fl) (n := k) (st := st)
    simp only [ofTy, nesting]
    omega
  | dyn t ih =>
    intro fl st
    simp only [ofTy, nesting]
    have : after (decodeUint256 st) (fun x => after (x.2.pushFrame 32) fun st =>
        arrayDepth fl (wrapDyn (ofTy t)) x.1 st) ≤ 2 * nesting t + 2 + 1 :=
      after_le fun _ _ => after_le fun _ _ => array_flat (by omega) ih
    have := Nat.max_le.2 ⟨(by omega : 1 ≤ 2 * nesting t + 2 + 1), this⟩
    omega
  | tuple ts ih =>
    intro fl st
    simp only [ofTy, nesting]
    have := tuple_flat (B := 2 * nestingAll ts + 2) (by omega) (cs := ofTys ts) (fl := fl) (st := st) (by
      intro c hc fl st
      rw [ofTys_map] at hc
      obtain ⟨t, ht, rfl⟩ := List.mem_map.1 hc
      have := ih t ht fl st
      have := nesting_le_all ht
      omega)
    omega
  | _ =>
    intro fl st
    simp [ofTy, const, nesting]

/-- The nesting of the calls of `decode`. -/
theorem decodeDepth_eq [Ext] {types : List TypeStr} {ts : List Ty} (h : List.Forall₂ Supported types ts)
    (data : Bytes) (strict : Bool) :
    decodeDepth types data strict =
      tupleDepth (fun _ => true) ((ts.map fun t => (ofTy t).setStrict strict).map wrapDyn) (Stream.init data) := by
  rw [decodeDepth, lookups h]
  rfl

theorem decodeDepth_le [Ext] {types : List TypeStr} {ts : List Ty} (h : List.Forall₂ Supported types ts)
    (data : Bytes) (strict : Bool) : decodeDepth types data strict ≤ 2 * nestingAll ts + 4 := by
  rw [decodeDepth_eq h]
  refine tuple_flat (B := 2 * nestingAll ts + 2) (by omega) ?_
  intro c hc fl st
  obtain ⟨t, ht, rfl⟩ := List.mem_map.1 hc
  have := ofTy_flat t fl st
  have := nesting_le_all ht
  show (ofTy t).deep fl st ≤ _
  omega

end Counted

namespace Tallied
open Counted (after after_le)

/-- The calls of an object are nested at most `B` deep: two less for its check, which makes no bytes. -/
def Flat (B : Nat) (c : Tallied) : Prop := ∀ v, c.checkDepth v + 2 ≤ B ∧ c.callDepth v ≤ B

theorem item_flat {B : Nat} {cs : List Tallied} (h : ∀ c ∈ cs, Flat B c ∧
    ∀ v, c.enc.validateValue v ≠ .error .attributeError) (vs : List PyVal) : itemDepth vs cs ≤ B - 2 := by
  induction cs generalizing vs with
  | nil => cases vs <;> simp [itemDepth]
  | cons c cs ih =>
    cases vs with
    | nil => simp [itemDepth]
    | cons v vs =>
      obtain ⟨h1, h2⟩ := h c (by simp)
      have h3 := (h1 v).1
      simp only [itemDepth]
      refine Nat.max_le.2 ⟨by omega, Nat.max_le.2 ⟨?_, after_le fun _ _ => ih (fun x hx => h x (by simp [hx])) vs⟩⟩
      split
      · next heq => exact absurd heq (h2 v)
      · exact Nat.zero_le _

theorem tupleCheck_flat {B : Nat} (hB : 2 ≤ B) {cs : List Tallied} (h : ∀ c ∈ cs, Flat B c ∧
    ∀ v, c.enc.validateValue v ≠ .error .attributeError) (v : PyVal) : tupleCheckDepth cs v + 2 ≤ B + 1 := by
  unfold tupleCheckDepth
  split
  · omega
  · split
    · omega
    · next vs _ _ =>
      have := item_flat h vs
      omega

theorem chunk_flat {B : Nat} {cs : List Tallied} (h : ∀ c ∈ cs, Flat B c) (vs : List PyVal) :
    chunkDepth vs cs ≤ B := by
  induction cs generalizing vs with
  | nil => cases vs <;> simp [chunkDepth]
  | cons c cs ih =>
    cases vs with
    | nil => simp [chunkDepth]
    | cons v vs =>
      simp only [chunkDepth]
      exact Nat.max_le.2 ⟨(h c (by simp) v).2, after_le fun _ _ => ih (fun x hx => h x (by simp [hx])) vs⟩

theorem tuple_flat [Ext] {B : Nat} (hB : 2 ≤ B) {cs : List Tallied} (h : ∀ c ∈ cs, Flat B c ∧
    ∀ v, c.enc.validateValue v ≠ .error .attributeError) (v : PyVal) : tupleCallDepth cs v ≤ B + 1 := by
  have h1 := tupleCheck_flat hB h v
  unfold tupleCallDepth
  have h2 : after (tupleValidate (cs.map (·.enc)) v) (fun _ =>
      match asListLike? v with
      | none => 0
      | some vs => max (chunkDepth vs cs) (after (tupleChunks vs (cs.map (·.enc))) fun p =>
          if p.1.contains none then uintDepth else 0)) ≤ B := by
    refine after_le fun _ _ => ?_
    split
    · exact Nat.zero_le _
    · refine Nat.max_le.2 ⟨chunk_flat (fun c hc => (h c hc).1) _, after_le fun _ _ => ?_⟩
      split
      · exact hB
      · exact Nat.zero_le _
  rw [Nat.add_comm]
  exact Nat.succ_le_succ (Nat.max_le.2 ⟨by omega, h2⟩)

theorem eachCheck_flat {B : Nat} {c : Tallied} (h : Flat B c) (vs : List PyVal) : eachCheckDepth c vs ≤ B - 2 := by
  induction vs with
  | nil => exact Nat.zero_le _
  | cons v vs ih =>
    simp only [eachCheckDepth]
    have := (h v).1
    exact Nat.max_le.2 ⟨by omega, after_le fun _ _ => ih⟩

theorem arrayCheck_flat {B : Nat} (hB : 2 ≤ B) {c : Tallied} (h : Flat B c) (v : PyVal) :
    arrayCheckDepth c v + 2 ≤ B + 1 := by
  unfold arrayCheckDepth
  split
  · omega
  · next vs _ =>
    have := eachCheck_flat h vs
    omega

theorem eachCall_flat {B : Nat} {c : Tallied} (h : Flat B c) (vs : List PyVal) : eachCallDepth c vs ≤ B := by
  induction vs with
  | nil => exact Nat.zero_le _
  | cons v vs ih =>
    simp only [eachCallDepth]
    exact Nat.max_le.2 ⟨(h v).2, after_le fun _ _ => ih⟩

theorem element_flat [Ext] {B : Nat} (hB : 2 ≤ B) {c : Tallied} (h : Flat B c) (validate : PyVal → PyM Unit)
    (v : PyVal) : elementDepth validate c v ≤ B := by
  unfold elementDepth
  have := arrayCheck_flat hB h v
  refine Nat.max_le.2 ⟨by omega, after_le fun _ _ => ?_⟩
  split
  · exact Nat.zero_le _
  · refine Nat.max_le.2 ⟨eachCall_flat h _, after_le fun _ _ => ?_⟩
    split
    · exact Nat.zero_le _
    · exact hB

theorem ofTy_flat [Ext] (pk : Bool) {t : Ty} : t.Valid → Flat (nesting t + 3) (ofTy pk t) := by
  induction t using Ty.ind with
  | sized k t ih =>
    intro hv v
    replace ih := ih hv.2
    have h1 := arrayCheck_flat (by omega) ih v
    have h2 := element_flat (by omega) ih (sizedArrayValidate (ofTy pk t).enc (some k)) v
    simp only [ofTy, nesting]
    omega
  | dyn t ih =>
    intro hv v
    replace ih := ih hv
    have h1 := arrayCheck_flat (by omega) ih v
    simp only [ofTy, nesting]
    refine ⟨by omega, ?_⟩
    split
    · have h2 := element_flat (by omega) ih (sizedArrayValidate (ofTy pk t).enc none) v
      omega
    · have h2 : after (pyLen v) (fun len => max uintDepth (after (encodeUint256 len) fun _ =>
          elementDepth (arrayValidate (ofTy pk t).enc) (ofTy pk t) v)) ≤ nesting t + 3 :=
        after_le fun _ _ => Nat.max_le.2 ⟨by unfold uintDepth; omega, after_le fun _ _ =>
          element_flat (by omega) ih _ v⟩
      omega
  | tuple ts ih =>
    intro hv v
    have hc : ∀ c ∈ ofTys pk ts, Flat (nestingAll ts + 3) c ∧
        ∀ v, c.enc.validateValue v ≠ .error .attributeError := by
      intro c hc
      rw [ofTys_map] at hc
      obtain ⟨t, ht, rfl⟩ := List.mem_map.1 hc
      have hvt := allValid_mem hv.2 ht
      refine ⟨fun v => ?_, (ofTy_counts pk t hvt).noAttr⟩
      have := ih t ht hvt v
      have := nesting_le_all ht
      omega
    have h1 := tupleCheck_flat (by omega) hc v
    have h2 := tuple_flat (by omega) hc v
    simp only [ofTy, nesting]
    omega
  | bytes =>
    intro _ v
    simp only [ofTy, nesting]
    cases pk
    · refine ⟨by simp [byteString], ?_⟩
      simp only [byteString]
      have : after (byteStringValidate v) (fun _ => after (bytesEncodeFn v) fun _ => uintDepth) ≤ 2 :=
        after_le fun _ _ => after_le fun _ _ => Nat.le_refl 2
      have := Nat.max_le.2 ⟨(by omega : 1 ≤ 2), this⟩
      simp only [Bool.false_eq_true, if_false]
      omega
    · simp [once]
  | string =>
    intro _ v
    simp only [ofTy, nesting]
    cases pk
    · refine ⟨by simp [textString], ?_⟩
      simp only [textString]
      have : after (textValidate v) (fun _ => after (textEncodeFn v) fun _ => uintDepth) ≤ 2 :=
        after_le fun _ _ => after_le fun _ _ => Nat.le_refl 2
      have := Nat.max_le.2 ⟨(by omega : 1 ≤ 2), this⟩
      simp only [Bool.false_eq_true, if_false]
      omega
    · simp [once]
  | _ =>
    intro _ v
    simp [ofTy, once, nesting]

theorem ofTys_flat [Ext] (pk : Bool) {ts : List Ty} (hv : ∀ t ∈ ts, t.Valid) :
    ∀ c ∈ ofTys pk ts, Flat (nestingAll ts + 3) c ∧ ∀ v, c.enc.validateValue v ≠ .error .attributeError := by
  intro c hc
  rw [ofTys_map] at hc
  obtain ⟨t, ht, rfl⟩ := List.mem_map.1 hc
  refine ⟨fun v => ?_, (ofTy_counts pk t (hv t ht)).noAttr⟩
  have := ofTy_flat pk (hv t ht) v
  have := nesting_le_all ht
  omega

theorem encodeDepth_le [Ext] (pk : Bool) {types : List TypeStr} {ts : List Ty} (h : List.Forall₂ Supported types ts)
    (args : PyVal) : encodeDepth pk types args ≤ nestingAll ts + 4 := by
  unfold encodeDepth
  refine after_le fun _ _ => ?_
  rw [lookups pk h, after_ok rfl]
  exact tuple_flat (by omega) (ofTys_flat pk (supportedAll_valid h)) args

theorem isEncodableDepth_le [Ext] (pk : Bool) {s : TypeStr} {t : Ty} (h : Supported s t) (v : PyVal) :
    isEncodableDepth pk s v ≤ nesting t + 1 := by
  unfold isEncodableDepth
  have hv := supported_valid h
  rw [lookup pk h, after_ok rfl]
  have := ofTy_flat pk hv v
  refine Nat.max_le.2 ⟨by omega, ?_⟩
  split
  · next heq => exact absurd heq ((ofTy_counts pk t hv).noAttr v)
  · exact Nat.zero_le _

end Tallied
end EthAbi
