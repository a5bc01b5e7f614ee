import Verif.Model.EncCost
import Verif.Spec.Cost
import Verif.Lemmas.Codec
import Verif.Lemmas.Cost
import Verif.Lemmas.Accept

/-! # The number of checks of `encode` -/
namespace EthAbi
open Spec
namespace Tallied
open Counted (after after_le)

mutual
/-- The encoder object of a type, with its count. -/
def ofTy [Ext] (pk : Bool) : Ty → Tallied
  | .uint n => once (encOf pk (.uint n))
  | .int n => once (encOf pk (.int n))
  | .address => once (encOf pk .address)
  | .bool => once (encOf pk .bool)
  | .ufixed m n => once (encOf pk (.ufixed m n))
  | .fixed m n => once (encOf pk (.fixed m n))
  | .bytesM m => once (encOf pk (.bytesM m))
  | .bytes => if pk then once packedByteStringEncoder else byteString
  | .string => if pk then once packedTextStringEncoder else textString
  | .sized k t =>
    { enc := encOf pk (.sized k t)
      checks := arrayChecks (ofTy pk t)
      calls := elementCalls (sizedArrayValidate (ofTy pk t).enc (some k)) (ofTy pk t)
      checkDepth := arrayCheckDepth (ofTy pk t)
      callDepth := fun v => 1 + elementDepth (sizedArrayValidate (ofTy pk t).enc (some k)) (ofTy pk t) v }
  | .dyn t =>
    { enc := encOf pk (.dyn t)
      checks := arrayChecks (ofTy pk t)
      calls := fun v =>
        if pk then elementCalls (sizedArrayValidate (ofTy pk t).enc none) (ofTy pk t) v
        else after (pyLen v) fun len => uintChecks + after (encodeUint256 len) fun _ =>
                 elementCalls (arrayValidate (ofTy pk t).enc) (ofTy pk t) v
      checkDepth := arrayCheckDepth (ofTy pk t)
      callDepth := fun v =>
        if pk then 1 + elementDepth (sizedArrayValidate (ofTy pk t).enc none) (ofTy pk t) v
        else 1 + after (pyLen v) fun len => max uintDepth (after (encodeUint256 len) fun _ =>
                 elementDepth (arrayValidate (ofTy pk t).enc) (ofTy pk t) v) }
  | .tuple ts =>
    { enc := encOf pk (.tuple ts)
      checks := tupleChecks (ofTys pk ts)
      calls := tupleCalls (ofTys pk ts)
      checkDepth := tupleCheckDepth (ofTys pk ts)
      callDepth := tupleCallDepth (ofTys pk ts) }
/-- The objects of a list of types. -/
def ofTys [Ext] (pk : Bool) : List Ty → List Tallied
  | [] => []
  | t :: ts => ofTy pk t :: ofTys pk ts
end

theorem ofTy_enc [Ext] (pk : Bool) (t : Ty) : (ofTy pk t).enc = encOf pk t := by
  cases t <;> rw [ofTy] <;> (try rfl) <;> cases pk <;> rfl

theorem ofTys_map [Ext] (pk : Bool) (ts : List Ty) : ofTys pk ts = ts.map (ofTy pk) := by
  induction ts with
  | nil => rfl
  | cons t ts ih => simp [ofTys, ih]

theorem ofTys_enc [Ext] (pk : Bool) (ts : List Ty) : (ofTys pk ts).map (·.enc) = encsOf pk ts := by
  induction ts with
  | nil => rfl
  | cons t ts ih => simp [ofTys, encsOf, ih, ofTy_enc]

theorem ofTys_length [Ext] (pk : Bool) (ts : List Ty) : (ofTys pk ts).length = ts.length := by
  rw [ofTys_map, List.length_map]

/-- The classes of `talliedEncoders` and `talliedPacked`. -/
def kit [Ext] (pk : Bool) : Kit Tallied where
  uint n := talliedOf (mkUInt n (if pk then n / 8 else 32))
  int n := talliedOf (mkSInt n (if pk then n / 8 else 32))
  address := talliedOf (mkAddress (if pk then 20 else 32))
  bool := talliedOf (mkBool (if pk then 1 else 32))
  ufixed m n := talliedOf (mkUFixed m n (if pk then m / 8 else 32))
  fixed m n := talliedOf (mkSFixed m n (if pk then m / 8 else 32))
  bytesM n := talliedOf (mkBytesM (n * 8) (if pk then n else 32))
  bytes := if pk then once packedByteStringEncoder else byteString
  string := if pk then once packedTextStringEncoder else textString
  array d c := if pk then .ok (packedArray d c) else array d c
  tuple := tuple

theorem kit_regs [Ext] : (kit false).regs = talliedEncoders := rfl
theorem kit_packed [Ext] : (kit true).regs = talliedPacked := rfl

theorem kit_makes [Ext] (pk : Bool) : (kit pk).Makes (ofTy pk) where
  uint n h := by
    have : talliedOf (mkUInt n (if pk then n / 8 else 32)) = _ :=
      congrArg talliedOf ((encKit_makes pk).uint n h)
    exact this
  int n h := by
    have : talliedOf (mkSInt n (if pk then n / 8 else 32)) = _ :=
      congrArg talliedOf ((encKit_makes pk).int n h)
    exact this
  address := by
    have : talliedOf (mkAddress (if pk then 20 else 32)) = _ := congrArg talliedOf ((encKit_makes pk).address)
    exact this
  bool := by
    have : talliedOf (mkBool (if pk then 1 else 32)) = _ := congrArg talliedOf ((encKit_makes pk).bool)
    exact this
  ufixed m n h h4 h5 := by
    have : talliedOf (mkUFixed m n (if pk then m / 8 else 32)) = _ :=
      congrArg talliedOf ((encKit_makes pk).ufixed m n h h4 h5)
    exact this
  fixed m n h h4 h5 := by
    have : talliedOf (mkSFixed m n (if pk then m / 8 else 32)) = _ :=
      congrArg talliedOf ((encKit_makes pk).fixed m n h h4 h5)
    exact this
  bytesM m h1 h2 := by
    have : talliedOf (mkBytesM (m * 8) (if pk then m else 32)) = _ :=
      congrArg talliedOf ((encKit_makes pk).bytesM m h1 h2)
    exact this
  bytes := by rw [ofTy]; rfl
  string := by rw [ofTy]; rfl
  array d t := by
    cases pk with
    | true =>
      cases d with
      | none =>
        simp only [kit, if_true, wrapDim, ofTy, packedArray, ofTy_enc]
        rfl
      | some k =>
        simp only [kit, if_true, wrapDim, ofTy, packedArray, ofTy_enc]
        rfl
    | false =>
      have h : mkArray d (encOf false t) = .ok (encOf false (wrapDim t d)) := (encKit_makes false).array d t
      show array d (ofTy false t) = _
      rw [array, ofTy_enc, h, ok_bind, pure_eq_ok]
      cases d <;> simp only [wrapDim, ofTy, ofTy_enc] <;> rfl
  tuple ts := by
    have h : mkTuple (ts.map (encOf pk)) = encOf pk (.tuple ts) := (encKit_makes pk).tuple ts
    show tuple (ts.map (ofTy pk)) = _
    rw [tuple, ofTy, ofTys_map, List.map_map, ← h]
    congr 2
    simp [ofTy_enc]

theorem fuel_step [Ext] (pk : Bool) (n fuel : Nat) (s : TypeStr) :
    getTalliedFuel (mappingOf n defaultPreds (kit pk).regs) (fuel + 1) s =
      lookStep (kit pk) n (getTalliedFuel (mappingOf n defaultPreds (kit pk).regs) fuel) s := by
  rw [getTalliedFuel, lookStep]
  split <;> simp_all

theorem fuel_outcome [Ext] (pk : Bool) (n fuel : Nat) : ∀ a s, Derives a s → a.numsOk = true → depth a ≤ fuel →
    Outcome (ofTy pk) (found a s) (getTalliedFuel (mappingOf n defaultPreds (kit pk).regs) fuel s) := by
  induction fuel with
  | zero =>
    intro a s _ _ h
    cases a <;> simp [depth] at h
  | succ fuel ih =>
    intro a s hd hn hdep
    rw [fuel_step]
    exact lookStep_outcome (kit_makes pk) ih hd hn hdep

theorem lookup [Ext] (pk : Bool) {s : TypeStr} {t : Ty} (h : Supported s t) :
    getTallied pk s = .ok (ofTy pk t) := by
  have hg : ∃ n, getTallied pk s = getTalliedFuel (mappingOf n defaultPreds (kit pk).regs) (s.length + 1) s := by
    cases pk
    · exact ⟨0, rfl⟩
    · exact ⟨100, rfl⟩
  obtain ⟨n, hg⟩ := hg
  rw [hg]
  cases hp : parse s with
  | error e => exact absurd h (not_supported hp t)
  | ok a =>
    obtain ⟨hd, hn⟩ := parse_ok_iff.1 hp
    have := fuel_outcome pk n (s.length + 1) a s hd hn (by have := depth_le hd; omega)
    rw [(found_iff hd hn).2 h] at this
    exact this

theorem lookups [Ext] (pk : Bool) {types : List TypeStr} {ts : List Ty} (h : List.Forall₂ Supported types ts) :
    mapPyM (getTallied pk) types = .ok (ofTys pk ts) := by
  rw [mapPyM_ok, ofTys_map]
  induction h with
  | nil => exact .nil
  | cons h1 _ ih => exact .cons (lookup pk h1) ih

/-! ## Counting the checks of a value -/

/-- What is known of the object of a type: its check, its call. -/
structure Counts [Ext] (pk : Bool) (t : Ty) (c : Tallied) : Prop where
  noAttr : ∀ v, c.enc.validateValue v ≠ .error .attributeError
  dyn : c.enc.dyn = dynBy pk t
  callVal : ∀ v b, c.enc.call v = .ok b → c.enc.validateValue v = .ok ()
  checksLe : ∀ v, c.checks v ≤ valueCount v
  checksEq : ∀ v, c.enc.validateValue v = .ok () → c.checks v = valueCount v
  callsLe : ∀ v, c.calls v + 1 ≤ (nesting t + 3) * valueCount v
  callsEq : ∀ v b, c.enc.call v = .ok b → c.calls v = if pk then packedChecks t v else Spec.checks t v

theorem after_ok {α : Type} {r : PyM α} {a : α} {f : α → Nat} (h : r = .ok a) : after r f = f a := by rw [h]; rfl

theorem valueCount_pos (v : PyVal) : 1 ≤ valueCount v := by
  cases v <;> simp [valueCount]

theorem valueCount_listLike {v : PyVal} {vs : List PyVal} (h : asListLike? v = some vs) :
    valueCount v = valueCounts vs + 1 := by
  cases v <;> simp [asListLike?] at h <;> subst h <;> simp [valueCount]

theorem partsOf_listLike {v : PyVal} {vs : List PyVal} (h : asListLike? v = some vs) : partsOf v = vs := by
  cases v <;> simp [asListLike?] at h <;> subst h <;> simp [partsOf]

theorem valueCount_not {v : PyVal} (h : asListLike? v = none) : valueCount v = 1 := by
  cases v <;> simp [asListLike?] at h <;> simp [valueCount]

theorem length_le_valueCounts (vs : List PyVal) : vs.length ≤ valueCounts vs := by
  induction vs with
  | nil => simp [valueCounts]
  | cons v vs ih => simp only [List.length_cons, valueCounts]; have := valueCount_pos v; omega

theorem Counts.validateOrCall_eq [Ext] {pk : Bool} {t : Ty} {c : Tallied} (h : Counts pk t c) (v : PyVal) :
    validateOrCall c.enc v = c.enc.validateValue v := by
  unfold validateOrCall
  split
  · next heq => exact absurd heq (h.noAttr v)
  · rfl

/-! ### Checks -/

theorem itemChecks_cons [Ext] {pk : Bool} {t : Ty} {c : Tallied} (h : Counts pk t c) (v : PyVal) (vs : List PyVal)
    (cs : List Tallied) : itemChecks (v :: vs) (c :: cs) =
      c.checks v + after (c.enc.validateValue v) fun _ => itemChecks vs cs := by
  rw [itemChecks, h.validateOrCall_eq]
  have := h.noAttr v
  cases hv : c.enc.validateValue v with
  | ok u => simp
  | error e =>
    rw [hv] at this
    cases e <;> first | rfl | (exact absurd rfl this)

theorem itemChecks_le [Ext] {pk : Bool} {ts : List Ty} {cs : List Tallied} (h : List.Forall₂ (Counts pk) ts cs)
    (vs : List PyVal) : itemChecks vs cs ≤ valueCounts vs := by
  induction h generalizing vs with
  | nil => cases vs <;> simp [itemChecks]
  | @cons t c ts cs h1 _ ih =>
    cases vs with
    | nil => simp [itemChecks]
    | cons v vs =>
      rw [itemChecks_cons h1, valueCounts]
      exact Nat.add_le_add (h1.checksLe v) (after_le fun _ _ => ih vs)

theorem itemChecks_eq [Ext] {pk : Bool} {ts : List Ty} {cs : List Tallied} (h : List.Forall₂ (Counts pk) ts cs)
    {vs : List PyVal} (hl : vs.length = cs.length) (hv : tupleValidateItems vs (cs.map (·.enc)) = .ok ()) :
    itemChecks vs cs = valueCounts vs := by
  induction h generalizing vs with
  | nil =>
    cases vs with
    | nil => simp [itemChecks, valueCounts]
    | cons => simp at hl
  | @cons t c ts cs h1 _ ih =>
    cases vs with
    | nil => simp at hl
    | cons v vs =>
      rw [List.map_cons, tupleValidateItems, h1.validateOrCall_eq] at hv
      obtain ⟨⟨⟩, hv1, hv2⟩ := bind_eq_ok.1 hv
      rw [itemChecks_cons h1, valueCounts, after_ok hv1, h1.checksEq v hv1,
        ih (by simpa using hl) hv2]

theorem tupleChecks_le [Ext] {pk : Bool} {ts : List Ty} {cs : List Tallied} (h : List.Forall₂ (Counts pk) ts cs)
    (v : PyVal) : tupleChecks cs v ≤ valueCount v := by
  rw [tupleChecks]
  cases hv : asListLike? v with
  | none => rw [valueCount_not hv]; exact Nat.le_refl _
  | some vs =>
    rw [valueCount_listLike hv]
    have := itemChecks_le h vs
    simp only
    split <;> omega

theorem tupleChecks_eq [Ext] {pk : Bool} {ts : List Ty} {cs : List Tallied} (h : List.Forall₂ (Counts pk) ts cs)
    {v : PyVal} (hv : tupleValidate (cs.map (·.enc)) v = .ok ()) : ∃ vs, asListLike? v = some vs ∧
      vs.length = cs.length ∧ tupleValidateItems vs (cs.map (·.enc)) = .ok () ∧ tupleChecks cs v = valueCount v := by
  rw [tupleValidate] at hv
  cases hl : asListLike? v with
  | none => rw [hl] at hv; rw [invalidate_eq] at hv; cases hv
  | some vs =>
    rw [hl] at hv
    simp only [List.length_map] at hv
    split at hv
    · rw [invalidate_eq] at hv; cases hv
    · next hn =>
      have hn : vs.length = cs.length := by omega
      refine ⟨vs, rfl, hn, hv, ?_⟩
      rw [tupleChecks, hl, valueCount_listLike hl]
      simp only
      rw [if_neg (by omega), itemChecks_eq h hn hv]
      omega

theorem eachCheck_le [Ext] {pk : Bool} {t : Ty} {c : Tallied} (h : Counts pk t c) (vs : List PyVal) :
    eachCheck c vs ≤ valueCounts vs := by
  induction vs with
  | nil => simp [eachCheck]
  | cons v vs ih =>
    rw [eachCheck, valueCounts]
    exact Nat.add_le_add (h.checksLe v) (after_le fun _ _ => ih)

theorem eachCheck_eq [Ext] {pk : Bool} {t : Ty} {c : Tallied} (h : Counts pk t c) {vs : List PyVal}
    (hv : arrayValidateItems c.enc vs = .ok ()) : eachCheck c vs = valueCounts vs := by
  induction vs with
  | nil => simp [eachCheck, valueCounts]
  | cons v vs ih =>
    rw [arrayValidateItems] at hv
    obtain ⟨⟨⟩, hv1, hv2⟩ := bind_eq_ok.1 hv
    rw [eachCheck, valueCounts, after_ok hv1, h.checksEq v hv1, ih hv2]

theorem arrayChecks_le [Ext] {pk : Bool} {t : Ty} {c : Tallied} (h : Counts pk t c) (v : PyVal) :
    arrayChecks c v ≤ valueCount v := by
  rw [arrayChecks]
  cases hv : asListLike? v with
  | none => rw [valueCount_not hv]; exact Nat.le_refl _
  | some vs =>
    rw [valueCount_listLike hv]
    have := eachCheck_le h vs
    simp only
    omega

theorem arrayChecks_eq [Ext] {pk : Bool} {t : Ty} {c : Tallied} (h : Counts pk t c) {v : PyVal}
    (hv : arrayValidate c.enc v = .ok ()) : ∃ vs, asListLike? v = some vs ∧
      arrayValidateItems c.enc vs = .ok () ∧ arrayChecks c v = valueCount v := by
  rw [arrayValidate] at hv
  cases hl : asListLike? v with
  | none => rw [hl] at hv; rw [invalidate_eq] at hv; cases hv
  | some vs =>
    rw [hl] at hv
    refine ⟨vs, rfl, hv, ?_⟩
    rw [arrayChecks, hl, valueCount_listLike hl]
    simp only
    rw [eachCheck_eq h hv]
    omega

theorem sizedValidate_array [Ext] {item : Encoder} {k : Option Nat} {v : PyVal}
    (h : sizedArrayValidate item k v = .ok ()) : arrayValidate item v = .ok () := by
  unfold sizedArrayValidate at h
  obtain ⟨⟨⟩, h1, _⟩ := bind_eq_ok.1 h
  exact h1

/-! ### Calls -/

theorem chunkCalls_le [Ext] {pk : Bool} {ts : List Ty} {cs : List Tallied} (h : List.Forall₂ (Counts pk) ts cs)
    {vs : List PyVal} (hl : vs.length = cs.length) :
    chunkCalls vs cs + vs.length ≤ (nestingAll ts + 3) * valueCounts vs := by
  induction h generalizing vs with
  | nil =>
    cases vs with
    | nil => simp [chunkCalls]
    | cons => simp at hl
  | @cons t c ts cs h1 _ ih =>
    cases vs with
    | nil => simp at hl
    | cons v vs =>
      have h2 := ih (vs := vs) (by simpa using hl)
      have h3 := h1.callsLe v
      rw [chunkCalls, valueCounts, nestingAll, List.length_cons, Nat.mul_add]
      have h4 : after (c.enc.call v) (fun _ => chunkCalls vs cs) ≤ chunkCalls vs cs :=
        after_le fun _ _ => Nat.le_refl _
      have h5 : (nesting t + 3) * valueCount v ≤ (max (nesting t) (nestingAll ts) + 3) * valueCount v :=
        Nat.mul_le_mul_right _ (by omega)
      have h6 : (nestingAll ts + 3) * valueCounts vs ≤ (max (nesting t) (nestingAll ts) + 3) * valueCounts vs :=
        Nat.mul_le_mul_right _ (by omega)
      omega

theorem headCalls_le [Ext] (H : Nat) (raw : List (Option Bytes)) (os : List Nat) :
    headCalls H raw os ≤ raw.length := by
  induction raw generalizing os with
  | nil => simp [headCalls]
  | cons r raw ih =>
    cases os with
    | nil => cases r <;> simp [headCalls]
    | cons o os =>
      cases r with
      | none =>
        rw [headCalls, List.length_cons, Nat.add_comm]
        exact Nat.add_le_add (after_le fun _ _ => ih os) (Nat.le_refl 1)
      | some b =>
        rw [headCalls, List.length_cons]
        exact Nat.le_succ_of_le (ih os)

theorem tupleChunks_length {vs : List PyVal} {es : List Encoder} {p : List (Option Bytes) × List Bytes}
    (h : tupleChunks vs es = .ok p) : p.1.length ≤ vs.length := by
  induction vs generalizing es p with
  | nil => cases es <;> (rw [tupleChunks] at h <;> (injection h with h; subst h; simp))
  | cons v vs ih =>
    cases es with
    | nil =>
      rw [tupleChunks] at h
      · injection h with h; subst h; simp
      · simp
    | cons e es =>
      rw [tupleChunks] at h
      obtain ⟨b, _, h⟩ := bind_eq_ok.1 h
      obtain ⟨q, hq, h⟩ := bind_eq_ok.1 h
      have := ih hq
      simp only at h
      split at h <;> injection h with h <;> subst h <;> simp <;> omega

theorem tupleCalls_le [Ext] {pk : Bool} {ts : List Ty} {cs : List Tallied} (h : List.Forall₂ (Counts pk) ts cs)
    (v : PyVal) : tupleCalls cs v + 1 ≤ (nestingAll ts + 4) * valueCount v := by
  rw [tupleCalls]
  have h1 := tupleChecks_le h v
  have h0 := valueCount_pos v
  cases hv : tupleValidate (cs.map (·.enc)) v with
  | error e =>
    have : (nestingAll ts + 4) * valueCount v = nestingAll ts * valueCount v + 4 * valueCount v := Nat.add_mul _ _ _
    simp only [after]
    omega
  | ok u =>
    obtain ⟨vs, h2, h3, _, _⟩ := tupleChecks_eq h hv
    have h4 := chunkCalls_le h h3
    rw [after_ok rfl, h2]
    simp only
    have h5 : after (tupleChunks vs (cs.map (·.enc))) (fun p => headCalls (headLength p.1) p.1 (tailOffsets p.2)) ≤
        vs.length := after_le fun p hp => Nat.le_trans (headCalls_le _ _ _) (tupleChunks_length hp)
    have h6 := valueCount_listLike h2
    have h7 : (nestingAll ts + 4) * valueCount v = (nestingAll ts + 3) * valueCounts vs + valueCounts vs +
        (nestingAll ts + 4) := by rw [h6]; ring
    omega

theorem eachCall_le [Ext] {pk : Bool} {t : Ty} {c : Tallied} (h : Counts pk t c) (vs : List PyVal) :
    eachCall c vs + vs.length ≤ (nesting t + 3) * valueCounts vs := by
  induction vs with
  | nil => simp [eachCall]
  | cons v vs ih =>
    rw [eachCall, valueCounts, Nat.mul_add, List.length_cons]
    have h3 := h.callsLe v
    have h4 : after (c.enc.call v) (fun _ => eachCall c vs) ≤ eachCall c vs := after_le fun _ _ => Nat.le_refl _
    omega

theorem offsetCalls_le [Ext] (H : Nat) (os : List Nat) : offsetCalls H os ≤ os.length := by
  induction os with
  | nil => simp [offsetCalls]
  | cons o os ih =>
    rw [offsetCalls, List.length_cons, Nat.add_comm]
    exact Nat.add_le_add (after_le fun _ _ => ih) (Nat.le_refl 1)

theorem accumulateFrom_length (a : Nat) (xs : List Nat) : (accumulateFrom a xs).length = xs.length := by
  induction xs generalizing a with
  | nil => rfl
  | cons x xs ih => simp [accumulateFrom, ih]

theorem encodeAll_length {item : Encoder} {vs : List PyVal} {bs : List Bytes} (h : encodeAll item vs = .ok bs) :
    bs.length = vs.length := by
  induction vs generalizing bs with
  | nil => rw [encodeAll] at h; injection h with h; subst h; rfl
  | cons v vs ih =>
    rw [encodeAll] at h
    obtain ⟨b, _, h⟩ := bind_eq_ok.1 h
    obtain ⟨q, hq, h⟩ := bind_eq_ok.1 h
    injection h with h; subst h
    simp [ih hq]

theorem tailOffsets_length {ts : List Bytes} (h : ts ≠ []) : (tailOffsets ts).length = ts.length := by
  have : 0 < ts.length := List.length_pos_iff.2 h
  simp only [tailOffsets, List.length_cons, accumulateFrom_length, List.length_map, List.length_dropLast]
  omega

theorem elementCalls_le [Ext] {pk : Bool} {t : Ty} {c : Tallied} (h : Counts pk t c)
    {validate : PyVal → PyM Unit} (hva : ∀ v, validate v = .ok () → arrayValidate c.enc v = .ok ()) (v : PyVal) :
    elementCalls validate c v + 2 ≤ (nesting t + 4) * valueCount v := by
  rw [elementCalls]
  have h1 := arrayChecks_le h v
  have h0 := valueCount_pos v
  cases hv : validate v with
  | error e =>
    have : (nesting t + 4) * valueCount v = nesting t * valueCount v + 4 * valueCount v := Nat.add_mul _ _ _
    simp only [after]
    omega
  | ok u =>
    obtain ⟨vs, h2, _, _⟩ := arrayChecks_eq h (hva v hv)
    have h4 := eachCall_le h vs
    rw [after_ok rfl, h2]
    simp only
    have h5 : after (encodeAll c.enc vs) (fun tails => if !c.enc.dyn || vs.length == 0 then 0 else
        offsetCalls (32 * vs.length) (tailOffsets tails)) ≤ vs.length := by
      refine after_le fun tails ht => ?_
      split
      · omega
      · next hn =>
        have hl := encodeAll_length ht
        have hne : tails ≠ [] := by
          rintro rfl
          rw [← hl] at hn
          simp at hn
        have := offsetCalls_le (32 * vs.length) (tailOffsets tails)
        rw [tailOffsets_length hne] at this
        omega
    have h6 := valueCount_listLike h2
    have h7 : (nesting t + 4) * valueCount v = (nesting t + 3) * valueCounts vs + valueCounts vs +
        (nesting t + 4) := by rw [h6]; ring
    omega

/-! ### Calls that succeed -/

/-- The specified number of checks, standard or packed. -/
def specChecks (pk : Bool) (t : Ty) (v : PyVal) : Nat := if pk then packedChecks t v else Spec.checks t v

/-- The specified number for the components, standard or packed. -/
def specChecksAll (pk : Bool) (ts : List Ty) (vs : List PyVal) : Nat :=
  if pk then packedChecksAll ts vs else Spec.checksAll ts vs

theorem specChecksAll_cons (pk : Bool) (t : Ty) (ts : List Ty) (v : PyVal) (vs : List PyVal) :
    specChecksAll pk (t :: ts) (v :: vs) =
      specChecks pk t v + (if dynBy pk t then 1 else 0) + specChecksAll pk ts vs := by
  cases pk <;> simp [specChecksAll, specChecks, dynBy, packedChecksAll, checksAll]

theorem chunkCalls_eq [Ext] {pk : Bool} {ts : List Ty} {cs : List Tallied} (h : List.Forall₂ (Counts pk) ts cs)
    {vs : List PyVal} (hl : vs.length = cs.length) {p : List (Option Bytes) × List Bytes}
    (hp : tupleChunks vs (cs.map (·.enc)) = .ok p) :
    chunkCalls vs cs + p.1.countP (·.isNone) = specChecksAll pk ts vs ∧ p.1.length = p.2.length := by
  induction h generalizing vs p with
  | nil =>
    cases vs with
    | nil =>
      rw [List.map_nil, tupleChunks] at hp
      · injection hp with hp; subst hp
        cases pk <;> simp [chunkCalls, specChecksAll, packedChecksAll, checksAll]
      · simp
    | cons => simp at hl
  | @cons t c ts cs h1 _ ih =>
    cases vs with
    | nil => simp at hl
    | cons v vs =>
      rw [List.map_cons, tupleChunks] at hp
      obtain ⟨b, hb, hp⟩ := bind_eq_ok.1 hp
      obtain ⟨q, hq, hp⟩ := bind_eq_ok.1 hp
      obtain ⟨h2, h3⟩ := ih (by simpa using hl) hq
      have h4 : c.calls v = specChecks pk t v := h1.callsEq v b hb
      rw [chunkCalls, after_ok hb, specChecksAll_cons, ← h2, h4, ← h1.dyn]
      simp only at hp
      split at hp
      · next hd =>
        injection hp with hp; subst hp
        rw [if_pos hd]
        simp [h3]
        omega
      · next hd =>
        injection hp with hp; subst hp
        rw [if_neg hd]
        simp [h3]
        omega

theorem headCalls_eq [Ext] {H : Nat} {raw : List (Option Bytes)} {os : List Nat} (hl : raw.length ≤ os.length)
    {bs : List Bytes} (h : tupleHeadChunks H raw os = .ok bs) : headCalls H raw os = raw.countP (·.isNone) := by
  induction raw generalizing os bs with
  | nil => simp [headCalls]
  | cons r raw ih =>
    cases os with
    | nil => simp at hl
    | cons o os =>
      have hl : raw.length ≤ os.length := by simpa using hl
      cases r with
      | none =>
        rw [tupleHeadChunks] at h
        obtain ⟨b, hb, h⟩ := bind_eq_ok.1 h
        obtain ⟨q, hq, h⟩ := bind_eq_ok.1 h
        rw [headCalls, after_ok hb, ih (by simpa using hl) hq]
        simp [uintChecks]
        omega
      | some b =>
        rw [tupleHeadChunks] at h
        obtain ⟨b, hb, h⟩ := bind_eq_ok.1 h
        obtain ⟨q, hq, h⟩ := bind_eq_ok.1 h
        rw [headCalls, ih (by simpa using hl) hq]
        simp

theorem tailOffsets_length_ge (ts : List Bytes) : ts.length ≤ (tailOffsets ts).length := by
  simp only [tailOffsets, List.length_cons, accumulateFrom_length, List.length_map, List.length_dropLast]
  omega

theorem tupleCalls_eq [Ext] {pk : Bool} {ts : List Ty} {cs : List Tallied} (h : List.Forall₂ (Counts pk) ts cs)
    {v : PyVal} {b : Bytes} (hb : tupleEncode (cs.map (·.enc)) v = .ok b) :
    tupleCalls cs v = specChecks pk (.tuple ts) v := by
  rw [tupleEncode] at hb
  obtain ⟨⟨⟩, hv, hb⟩ := bind_eq_ok.1 hb
  obtain ⟨vs, h2, h3, _, h4⟩ := tupleChecks_eq h hv
  rw [h2] at hb
  simp only at hb
  obtain ⟨p, hp, hb⟩ := bind_eq_ok.1 hb
  obtain ⟨hs, hh, _⟩ := bind_eq_ok.1 hb
  obtain ⟨h5, h6⟩ := chunkCalls_eq h h3 hp
  have h7 := headCalls_eq (by rw [h6]; exact tailOffsets_length_ge _) hh
  rw [tupleCalls, h4, after_ok hv, h2]
  simp only
  rw [after_ok hp, h7, h5]
  have h8 := partsOf_listLike h2
  cases pk <;> simp [specChecks, specChecksAll, Spec.checks, packedChecks, h8]

theorem eachCall_eq [Ext] {pk : Bool} {t : Ty} {c : Tallied} (h : Counts pk t c) {vs : List PyVal} {bs : List Bytes}
    (hb : encodeAll c.enc vs = .ok bs) : eachCall c vs = (vs.map (specChecks pk t)).sum := by
  induction vs generalizing bs with
  | nil => simp [eachCall]
  | cons v vs ih =>
    rw [encodeAll] at hb
    obtain ⟨b, hb1, hb⟩ := bind_eq_ok.1 hb
    obtain ⟨q, hq, _⟩ := bind_eq_ok.1 hb
    have h4 : c.calls v = specChecks pk t v := h.callsEq v b hb1
    rw [eachCall, after_ok hb1, h4, ih hq]
    simp

theorem offsetCalls_eq [Ext] {H : Nat} {os : List Nat} {bs : List Bytes} (h : arrayHeadChunks H os = .ok bs) :
    offsetCalls H os = os.length := by
  induction os generalizing bs with
  | nil => simp [offsetCalls]
  | cons o os ih =>
    rw [arrayHeadChunks] at h
    obtain ⟨b, hb, h⟩ := bind_eq_ok.1 h
    obtain ⟨q, hq, h⟩ := bind_eq_ok.1 h
    rw [offsetCalls, after_ok hb, ih hq]
    simp [uintChecks]
    omega

theorem sum_plus {f : PyVal → Nat} {k : Nat} (vs : List PyVal) :
    (vs.map fun x => f x + k).sum = (vs.map f).sum + k * vs.length := by
  induction vs with
  | nil => simp
  | cons v vs ih => simp [ih]; ring

theorem elementCalls_eq [Ext] {pk : Bool} {t : Ty} {c : Tallied} (h : Counts pk t c)
    {validate : PyVal → PyM Unit} (hva : ∀ v, validate v = .ok () → arrayValidate c.enc v = .ok ()) {v : PyVal}
    {b : Bytes} (hb : encodeElements validate c.enc v = .ok b) : elementCalls validate c v =
      valueCount v + ((partsOf v).map fun x => specChecks pk t x + if dynBy pk t then 1 else 0).sum := by
  rw [encodeElements] at hb
  obtain ⟨⟨⟩, hv, hb⟩ := bind_eq_ok.1 hb
  obtain ⟨vs, h2, _, h4⟩ := arrayChecks_eq h (hva v hv)
  rw [h2] at hb
  simp only at hb
  obtain ⟨tails, ht, hb⟩ := bind_eq_ok.1 hb
  have h5 := eachCall_eq h ht
  rw [elementCalls, h4, after_ok hv, h2, partsOf_listLike h2]
  simp only
  rw [after_ok ht, h5, sum_plus, ← h.dyn]
  cases hd : c.enc.dyn with
  | false => simp
  | true =>
    simp only [Bool.not_true, Bool.false_or, if_true, Nat.one_mul]
    rw [hd] at hb
    simp only [Bool.not_true, Bool.false_or] at hb
    have hl := encodeAll_length ht
    split at hb
    · next hz =>
      rw [if_pos hz]
      have : vs.length = 0 := by simpa using hz
      omega
    · next hz =>
      rw [if_neg hz]
      obtain ⟨hs, hh, _⟩ := bind_eq_ok.1 hb
      have hne : tails ≠ [] := by
        rintro rfl
        rw [← hl] at hz
        simp at hz
      rw [offsetCalls_eq hh, tailOffsets_length hne, hl]

/-! ### All types -/

/-- A validation that refuses lists and tuples. -/
theorem one_of {validate : PyVal → PyM Unit} (h : ∀ v vs, asListLike? v = some vs → validate v ≠ .ok ()) (v : PyVal)
    (hv : validate v = .ok ()) : valueCount v = 1 := by
  cases ha : asListLike? v with
  | none => exact valueCount_not ha
  | some vs => exact absurd hv (h v vs ha)

theorem invalidate_ne [Ext] (v : PyVal) (e : Exc) : invalidateValue v e ≠ .ok () := by
  intro h
  rw [invalidate_eq] at h
  cases h

theorem int_one [Ext] (b : Int × Int) (v : PyVal) : intValidate b v = .ok () → valueCount v = 1 := by
  refine one_of (fun v vs hv h => ?_) v
  cases v <;> simp [asListLike?] at hv <;> exact invalidate_ne _ _ h

theorem fixed_one [Ext] (b : PyM (Dec10 × Dec10)) (n : Nat) (v : PyVal) :
    fixedValidate b n v = .ok () → valueCount v = 1 := by
  refine one_of (fun v vs hv h => ?_) v
  unfold fixedValidate at h
  cases v <;> simp [asListLike?] at hv <;> exact invalidate_ne _ _ (bind_eq_ok.1 h).choose_spec.1

theorem bool_one [Ext] (v : PyVal) : boolValidate v = .ok () → valueCount v = 1 := by
  refine one_of (fun v vs hv h => ?_) v
  cases v <;> simp [asListLike?] at hv <;> exact invalidate_ne _ _ h

theorem address_one [Ext] (v : PyVal) : addressValidate v = .ok () → valueCount v = 1 := by
  refine one_of (fun v vs hv h => ?_) v
  cases v <;> simp [asListLike?] at hv <;> exact invalidate_ne _ _ h

theorem bytesM_one [Ext] (n : Nat) (v : PyVal) : bytesMValidate n v = .ok () → valueCount v = 1 := by
  refine one_of (fun v vs hv h => ?_) v
  cases v <;> simp [asListLike?] at hv <;> exact invalidate_ne _ _ h

theorem bytes_one [Ext] (v : PyVal) : byteStringValidate v = .ok () → valueCount v = 1 := by
  refine one_of (fun v vs hv h => ?_) v
  cases v <;> simp [asListLike?] at hv <;> exact invalidate_ne _ _ h

theorem text_one [Ext] (v : PyVal) : textValidate v = .ok () → valueCount v = 1 := by
  refine one_of (fun v vs hv h => ?_) v
  cases v <;> simp [asListLike?] at hv <;> exact invalidate_ne _ _ h

theorem once_counts [Ext] {pk : Bool} {t : Ty} {e : Encoder} (he : e = encOf pk t) (hv : t.Valid)
    (hn : nesting t = 0) (hc : specChecks pk t = fun _ => 1)
    (hone : ∀ v, e.validateValue v = .ok () → valueCount v = 1) : Counts pk t (once e) where
  noAttr v h := by
    subst he
    exact ((encOf_good pk t hv).valErr v _ h).ne_attribute rfl
  dyn := by
    subst he
    have := (encOf_good pk t hv).isDyn
    show Option.getD _ _ = _
    rw [show (once (encOf pk t)).enc.isDynamic = _ from this]
    rfl
  callVal v b h := by
    subst he
    exact (encOf_good pk t hv).callVal v b h
  checksLe v := valueCount_pos v
  checksEq v h := (hone v h).symm
  callsLe v := by
    rw [hn]
    have := valueCount_pos v
    show 1 + 1 ≤ _
    omega
  callsEq v b _ := by
    have := congrFun hc v
    exact this.symm

/-- What is known from the encoder alone. -/
theorem counts_of [Ext] {pk : Bool} {t : Ty} (hv : t.Valid) {c : Tallied} (he : c.enc = encOf pk t)
    (h1 : ∀ v, c.checks v ≤ valueCount v) (h2 : ∀ v, c.enc.validateValue v = .ok () → c.checks v = valueCount v)
    (h3 : ∀ v, c.calls v + 1 ≤ (nesting t + 3) * valueCount v)
    (h4 : ∀ v b, c.enc.call v = .ok b → c.calls v = specChecks pk t v) : Counts pk t c where
  noAttr v h := by
    rw [he] at h
    exact ((encOf_good pk t hv).valErr v _ h).ne_attribute rfl
  dyn := by
    rw [he, Encoder.dyn, (encOf_good pk t hv).isDyn]
    rfl
  callVal v b h := by
    rw [he] at h ⊢
    exact (encOf_good pk t hv).callVal v b h
  checksLe := h1
  checksEq := h2
  callsLe := h3
  callsEq := h4

theorem lengthPrefixed_counts [Ext] {t : Ty} (hv : t.Valid) {c : Tallied} (he : c.enc = encOf false t)
    (hn : nesting t = 0) (hc : specChecks false t = fun _ => 2) (h1 : ∀ v, c.checks v = 1)
    (h2 : ∀ v, c.calls v ≤ 2) (h3 : ∀ v b, c.enc.call v = .ok b → c.calls v = 2)
    (hone : ∀ v, c.enc.validateValue v = .ok () → valueCount v = 1) : Counts false t c := by
  refine counts_of hv he (fun v => ?_) (fun v h => ?_) (fun v => ?_) (fun v b h => ?_)
  · rw [h1]; exact valueCount_pos v
  · rw [h1, hone v h]
  · rw [hn]
    have := valueCount_pos v
    have := h2 v
    omega
  · rw [h3 v b h, hc]

theorem array_counts [Ext] {pk : Bool} {t t' : Ty} (hv : t'.Valid) {c c' : Tallied} (h : Counts pk t c)
    (he : c'.enc = encOf pk t') (hn : nesting t' = nesting t + 1) (h1 : c'.checks = arrayChecks c)
    (h2 : ∀ v, c'.enc.validateValue v = .ok () → arrayValidate c.enc v = .ok ())
    (h3 : ∀ v, c'.calls v + 1 ≤ (nesting t + 4) * valueCount v)
    (h4 : ∀ v b, c'.enc.call v = .ok b → c'.calls v = specChecks pk t' v) : Counts pk t' c' := by
  refine counts_of hv he (fun v => ?_) (fun v hv => ?_) (fun v => ?_) h4
  · rw [h1]; exact arrayChecks_le h v
  · rw [h1]
    obtain ⟨_, _, _, h⟩ := arrayChecks_eq h (h2 v hv)
    exact h
  · rw [hn]
    exact h3 v

theorem ofTy_counts [Ext] (pk : Bool) (t : Ty) : t.Valid → Counts pk t (ofTy pk t) := by
  refine Spec.Ty.ind (P := fun t => t.Valid → Counts pk t (ofTy pk t)) ?_ ?_ ?_ ?_ ?_ ?_ ?_ ?_ ?_ ?_ ?_ ?_ t
  · intro n hv
    rw [ofTy]
    exact once_counts rfl hv rfl (by cases pk <;> rfl) fun v h => int_one _ v h
  · intro n hv
    rw [ofTy]
    exact once_counts rfl hv rfl (by cases pk <;> rfl) fun v h => int_one _ v h
  · intro hv
    rw [ofTy]
    exact once_counts rfl hv rfl (by cases pk <;> rfl) fun v h => address_one v h
  · intro hv
    rw [ofTy]
    exact once_counts rfl hv rfl (by cases pk <;> rfl) fun v h => bool_one v h
  · intro m n hv
    rw [ofTy]
    exact once_counts rfl hv rfl (by cases pk <;> rfl) fun v h => fixed_one _ _ v h
  · intro m n hv
    rw [ofTy]
    exact once_counts rfl hv rfl (by cases pk <;> rfl) fun v h => fixed_one _ _ v h
  · intro m hv
    rw [ofTy]
    exact once_counts rfl hv rfl (by cases pk <;> rfl) fun v h => bytesM_one _ v h
  · intro hv
    rw [ofTy]
    cases pk with
    | true => exact once_counts rfl hv rfl rfl fun v h => bytes_one v h
    | false =>
      refine lengthPrefixed_counts hv rfl rfl rfl (fun v => rfl) (fun v => ?_) (fun v b h => ?_)
        fun v h => bytes_one v h
      · exact Nat.add_le_add_left (after_le fun _ _ => after_le fun _ _ => Nat.le_refl 1) 1
      · obtain ⟨⟨⟩, h1, h⟩ := bind_eq_ok.1 h
        obtain ⟨x, h2, _⟩ := bind_eq_ok.1 h
        show 1 + after _ _ = 2
        rw [after_ok h1, after_ok h2]
        rfl
  · intro hv
    rw [ofTy]
    cases pk with
    | true => exact once_counts rfl hv rfl rfl fun v h => text_one v h
    | false =>
      refine lengthPrefixed_counts hv rfl rfl rfl (fun v => rfl) (fun v => ?_) (fun v b h => ?_)
        fun v h => text_one v h
      · exact Nat.add_le_add_left (after_le fun _ _ => after_le fun _ _ => Nat.le_refl 1) 1
      · obtain ⟨⟨⟩, h1, h⟩ := bind_eq_ok.1 h
        obtain ⟨x, h2, _⟩ := bind_eq_ok.1 h
        show 1 + after _ _ = 2
        rw [after_ok h1, after_ok h2]
        rfl
  · intro k t ih hv
    have h := ih hv.2
    refine array_counts hv h (ofTy_enc _ _) rfl (by rw [ofTy]) ?_ ?_ ?_
    · intro v h1
      refine sizedValidate_array (k := some k) ?_
      rw [ofTy_enc] at h1 ⊢
      cases pk <;> exact h1
    · intro v
      rw [ofTy]
      have := elementCalls_le h (validate := sizedArrayValidate (ofTy pk t).enc (some k))
          (fun v => sizedValidate_array) v
      show elementCalls _ _ v + 1 ≤ _
      omega
    · intro v b h1
      rw [ofTy]
      have h2 : encodeElements (sizedArrayValidate (ofTy pk t).enc (some k)) (ofTy pk t).enc v = .ok b := by
        rw [ofTy_enc] at h1 ⊢
        cases pk <;> exact h1
      have := elementCalls_eq h (fun v => sizedValidate_array (k := some k)) h2
      show elementCalls _ _ v = _
      rw [this]
      cases pk <;> simp [specChecks, dynBy, Spec.checks, packedChecks]
  · intro t ih hv
    have h := ih (by simpa [Ty.Valid] using hv)
    refine array_counts hv h (ofTy_enc _ _) rfl (by rw [ofTy]) ?_ ?_ ?_
    · intro v h1
      cases pk with
      | true =>
        refine sizedValidate_array (k := none) ?_
        rw [ofTy_enc] at h1 ⊢
        exact h1
      | false =>
        rw [ofTy_enc] at h1 ⊢
        exact h1
    · intro v
      rw [ofTy]
      cases pk with
      | true =>
        have := elementCalls_le h (validate := sizedArrayValidate (ofTy true t).enc none)
          (fun v => sizedValidate_array) v
        show elementCalls _ _ v + 1 ≤ _
        omega
      | false =>
        have h1 := elementCalls_le h (validate := arrayValidate (ofTy false t).enc) (fun v => id) v
        have h2 : after (pyLen v) (fun len => uintChecks + after (encodeUint256 len) fun _ =>
                 elementCalls (arrayValidate (ofTy false t).enc) (ofTy false t) v) ≤ 1 +
                 elementCalls (arrayValidate (ofTy false t).enc) (ofTy false t) v :=
          after_le fun _ _ => Nat.add_le_add_left (after_le fun _ _ => Nat.le_refl _) 1
        simp only [Bool.false_eq_true, if_false]
        omega
    · intro v b h1
      rw [ofTy_enc] at h1
      rw [ofTy]
      cases pk with
      | true =>
        have h2 : encodeElements (sizedArrayValidate (ofTy true t).enc none) (ofTy true t).enc v = .ok b := by
          rw [ofTy_enc]
          exact h1
        have := elementCalls_eq h (fun v => sizedValidate_array (k := none)) h2
        show elementCalls _ _ v = _
        rw [this]
        simp [specChecks, dynBy, packedChecks]
      | false =>
        obtain ⟨len, h2, h1⟩ := bind_eq_ok.1 h1
        obtain ⟨sz, h3, h1⟩ := bind_eq_ok.1 h1
        obtain ⟨el, h4, _⟩ := bind_eq_ok.1 h1
        rw [← ofTy_enc] at h4
        have := elementCalls_eq h (validate := arrayValidate (ofTy false t).enc) (fun v => id) h4
        simp only [Bool.false_eq_true, if_false]
        rw [after_ok h2, after_ok h3, this]
        simp [specChecks, dynBy, Spec.checks, uintChecks]
        omega
  · intro ts ih hv
    have hts : List.Forall₂ (Counts pk) ts (ofTys pk ts) := by
      rw [ofTys_map]
      replace hv := hv.2
      induction ts with
      | nil => exact .nil
      | cons t ts ih' =>
        exact .cons (ih t (by simp) hv.1) (ih' (fun u hu => ih u (by simp [hu])) hv.2)
    refine counts_of hv (ofTy_enc _ _) ?_ ?_ ?_ ?_
    · intro v
      rw [ofTy]
      exact tupleChecks_le hts v
    · intro v h
      rw [ofTy_enc] at h
      rw [ofTy]
      have h : tupleValidate ((ofTys pk ts).map (·.enc)) v = .ok () := by
        rw [ofTys_enc]; exact h
      obtain ⟨_, _, _, _, h⟩ := tupleChecks_eq hts h
      exact h
    · intro v
      rw [ofTy]
      exact tupleCalls_le hts v
    · intro v b h
      rw [ofTy_enc] at h
      rw [ofTy]
      refine tupleCalls_eq (b := b) hts ?_
      rw [ofTys_enc]
      exact h

theorem ofTys_counts [Ext] (pk : Bool) {ts : List Ty} (hv : ∀ t ∈ ts, t.Valid) :
    List.Forall₂ (Counts pk) ts (ofTys pk ts) := by
  rw [ofTys_map]
  induction ts with
  | nil => exact .nil
  | cons t ts ih => exact .cons (ofTy_counts pk t (hv t (by simp))) (ih fun u hu => hv u (by simp [hu]))

theorem encode_counts [Ext] (pk : Bool) {types : List TypeStr} {ts : List Ty} (hT : List.Forall₂ Supported types ts)
    {args : PyVal} {b : Bytes} (h : (regBy pk).encode types args = .ok b) :
    encodeChecks pk types args = specChecks pk (.tuple ts) args := by
  have h0 := h
  unfold Registry.encode at h0
  obtain ⟨⟨⟩, h1, _⟩ := bind_eq_ok.1 h0
  have h2 : ∃ vs, listOrTuple? args = some vs := by
    cases args <;> first | exact ⟨_, rfl⟩ | cases h1
  obtain ⟨vs, h2⟩ := h2
  rw [encode_eq pk hT h2, ← ofTys_enc] at h
  unfold encodeChecks
  rw [after_ok h1, lookups pk hT, after_ok rfl]
  exact tupleCalls_eq (ofTys_counts pk (supportedAll_valid hT)) h

theorem isEncodable_counts [Ext] (pk : Bool) {s : TypeStr} {t : Ty} (h : Supported s t) (v : PyVal) :
    isEncodableChecks pk s v ≤ valueCount v ∧
      ((regBy pk).isEncodable s v = .ok true → isEncodableChecks pk s v = valueCount v) := by
  have hc := ofTy_counts pk t (supported_valid h)
  have h1 : isEncodableChecks pk s v = (ofTy pk t).checks v := by
    unfold isEncodableChecks
    rw [lookup pk h, after_ok rfl]
    have := hc.noAttr v
    cases hv : (ofTy pk t).enc.validateValue v with
    | ok u => rfl
    | error e =>
      rw [hv] at this
      cases e <;> first | rfl | (exact absurd rfl this)
  rw [h1]
  refine ⟨hc.checksLe v, fun h2 => hc.checksEq v ?_⟩
  rw [ofTy_enc]
  rcases isEncodable_supported pk h v with ⟨h3, _⟩ | ⟨_, _, _, h3⟩ | ⟨_, _, h3⟩ | ⟨_, _, h3⟩
  · exact h3
  · rw [h3] at h2; cases h2
  · rw [h3] at h2; cases h2
  · rw [h3] at h2; cases h2

end Tallied
end EthAbi
