import Verif.Model.Cost
import Verif.Spec.Cost
import Verif.Lemmas.Codec

/-! # The number of decoder calls -/
namespace EthAbi
open Spec
namespace Counted

mutual
/-- The decoder object of a type, with its count. -/
def ofTy : Ty → Counted
  | .uint n => const 1 (decOf (.uint n))
  | .int n => const 1 (decOf (.int n))
  | .address => const 1 (decOf .address)
  | .bool => const 1 (decOf .bool)
  | .ufixed m n => const 1 (decOf (.ufixed m n))
  | .fixed m n => const 1 (decOf (.fixed m n))
  | .bytesM m => const 1 (decOf (.bytesM m))
  | .bytes => const 2 (decOf .bytes)
  | .string => const 2 (decOf .string)
  | .sized k t =>
    { dec := decOf (.sized k t)
      steps := fun fl st => 1 + arraySteps fl (wrapDyn (ofTy t)) k st
      deep := fun fl st => 1 + arrayDepth fl (wrapDyn (ofTy t)) k st }
  | .dyn t =>
    { dec := decOf (.dyn t)
      steps := fun fl st => 2 + after (decodeUint256 st) fun (k, st) => after (st.pushFrame 32) fun st =>
        arraySteps fl (wrapDyn (ofTy t)) k st
      deep := fun fl st => 1 + max 1 (after (decodeUint256 st) fun (k, st) => after (st.pushFrame 32) fun st =>
        arrayDepth fl (wrapDyn (ofTy t)) k st) }
  | .tuple ts =>
    { dec := decOf (.tuple ts)
      steps := fun fl st => tupleSteps fl ((ofTys ts).map wrapDyn) st
      deep := fun fl st => tupleDepth fl ((ofTys ts).map wrapDyn) st }
/-- The objects of a list of types. -/
def ofTys : List Ty → List Counted
  | [] => []
  | t :: ts => ofTy t :: ofTys ts
end

theorem ofTy_dec (t : Ty) : (ofTy t).dec = decOf t := by cases t <;> rw [ofTy] <;> rfl

theorem ofTys_map (ts : List Ty) : ofTys ts = ts.map ofTy := by
  induction ts with
  | nil => rfl
  | cons t ts ih => simp [ofTys, ih]

theorem ofTys_dec (ts : List Ty) : (ofTys ts).map (·.dec) = decsOf ts := by
  induction ts with
  | nil => rfl
  | cons t ts ih => simp [ofTys, decsOf, ih, ofTy_dec]

/-- The classes of `countedDecoders`. -/
def kit [Ext] : Kit Counted where
  uint n := countedOf 1 (mkUIntD n)
  int n := countedOf 1 (mkSIntD n)
  address := .ok (.const 1 addressDecoder)
  bool := .ok (.const 1 boolDecoder)
  ufixed m n := countedOf 1 (mkUFixedD m n)
  fixed m n := countedOf 1 (mkSFixedD m n)
  bytesM n := countedOf 1 (mkBytesMD (n * 8))
  bytes := .const 2 (byteStringDecoder (.own true))
  string := .const 2 (stringDecoder (.own true))
  array := Counted.array
  tuple := Counted.tuple

theorem kit_regs [Ext] : (kit).regs = countedDecoders := rfl

theorem kit_makes [Ext] : (kit).Makes ofTy where
  uint n h := by
    have : countedOf 1 (mkUIntD n) = _ := congrArg (countedOf 1) (decKit_makes.uint n h)
    exact this
  int n h := by
    have : countedOf 1 (mkSIntD n) = _ := congrArg (countedOf 1) (decKit_makes.int n h)
    exact this
  address := rfl
  bool := rfl
  ufixed m n h h4 h5 := by
    have : countedOf 1 (mkUFixedD m n) = _ := congrArg (countedOf 1) (decKit_makes.ufixed m n h h4 h5)
    exact this
  fixed m n h h4 h5 := by
    have : countedOf 1 (mkSFixedD m n) = _ := congrArg (countedOf 1) (decKit_makes.fixed m n h h4 h5)
    exact this
  bytesM m h1 h2 := by
    have : countedOf 1 (mkBytesMD (m * 8)) = _ := congrArg (countedOf 1) (decKit_makes.bytesM m h1 h2)
    exact this
  bytes := rfl
  string := rfl
  array d t := by
    have h : mkArrayD d (decOf t) = .ok (decOf (wrapDim t d)) := decKit_makes.array d t
    simp only [kit, Counted.array, ofTy_dec, h, ok_bind, pure_eq_ok]
    cases d <;> simp only [wrapDim, ofTy]
  tuple ts := by
    have h : mkTupleD (ts.map decOf) = decOf (.tuple ts) := decKit_makes.tuple ts
    simp only [kit, Counted.tuple, ofTy, ofTys_map, List.map_map]
    rw [← h]
    congr 2
    simp [ofTy_dec]

theorem setStrict_steps (c : Counted) (strict : Bool) : (c.setStrict strict).steps = c.steps := rfl

theorem fuel_step [Ext] (n fuel : Nat) (s : TypeStr) (strict : Bool) :
    getCountedFuel (mappingOf n defaultPreds (kit).regs) (fuel + 1) s strict =
      (lookStep kit n (fun s' => getCountedFuel (mappingOf n defaultPreds (kit).regs) fuel s' true) s
        >>= fun d => .ok (d.setStrict strict)) := by
  rw [getCountedFuel, lookStep]
  split <;> simp_all

theorem ofTy_setStrict_true (t : Ty) : (ofTy t).setStrict true = ofTy t := by
  simp only [Counted.setStrict, ofTy_dec, setStrict_true]
  rw [← ofTy_dec]

theorem fuel_outcome [Ext] (n fuel : Nat) : ∀ a s, Derives a s → a.numsOk = true → depth a ≤ fuel →
    Outcome ofTy (found a s) (getCountedFuel (mappingOf n defaultPreds (kit).regs) fuel s true) := by
  induction fuel with
  | zero =>
    intro a s _ _ h
    cases a <;> simp [depth] at h
  | succ fuel ih =>
    intro a s hd hn hdep
    rw [fuel_step]
    have := lookStep_outcome (n := n) (kit_makes) ih hd hn hdep
    cases hf : found a s with
    | none =>
      rw [hf] at this
      obtain ⟨e, he, ht⟩ := this
      rw [he]
      exact ⟨e, rfl, ht⟩
    | some t =>
      rw [hf] at this
      simp only [Outcome] at this ⊢
      rw [this, ok_bind, ofTy_setStrict_true]

theorem lookup [Ext] {s : TypeStr} {t : Ty} (h : Supported s t) (strict : Bool) :
    getCountedFuel (mappingOf 0 defaultPreds countedDecoders) (s.length + 1) s strict =
      .ok ((ofTy t).setStrict strict) := by
  rw [← kit_regs]
  cases hp : parse s with
  | error e => exact absurd h (not_supported hp t)
  | ok a =>
    obtain ⟨hd, hn⟩ := parse_ok_iff.1 hp
    have := lookStep_outcome (n := 0) (kit_makes) (fuel_outcome 0 s.length) hd hn
      (by have := depth_le hd; omega)
    rw [(found_iff hd hn).2 h] at this
    simp only [Outcome] at this
    rw [fuel_step, this]
    rfl

theorem lookups [Ext] {types : List TypeStr} {ts : List Ty} (h : List.Forall₂ Supported types ts)
    (strict : Bool) :
    mapPyM (fun s => getCountedFuel (mappingOf 0 defaultPreds countedDecoders) (s.length + 1) s strict) types
      = .ok (ts.map fun t => (ofTy t).setStrict strict) := by
  rw [mapPyM_ok]
  induction h with
  | nil => exact .nil
  | cons h1 _ ih => exact .cons (lookup h1 strict) ih

/-- The count of `decode`. -/
theorem decodeSteps_eq [Ext] {types : List TypeStr} {ts : List Ty} (h : List.Forall₂ Supported types ts)
    (data : Bytes) (strict : Bool) :
    decodeSteps types data strict =
      tupleSteps (fun _ => true) ((ts.map fun t => (ofTy t).setStrict strict).map wrapDyn)
        (Stream.init data) := by
  rw [decodeSteps, lookups h]
  rfl

/-- The objects counted are the objects that `decode` runs. -/
theorem lookups_dec [Ext] {types : List TypeStr} {ts : List Ty} (h : List.Forall₂ Supported types ts)
    (strict : Bool) :
    ∃ cs, mapPyM (fun s => getCountedFuel (mappingOf 0 defaultPreds countedDecoders) (s.length + 1) s strict)
        types = .ok cs ∧
      mapPyM (fun s => getDecoder defaultRegistry s strict) types = .ok (cs.map (·.dec)) := by
  refine ⟨_, lookups h strict, ?_⟩
  rw [mapPyM_ok]
  induction h with
  | nil => exact .nil
  | cons h1 _ ih =>
    refine .cons ?_ ih
    rw [getDecoder_supported h1 strict]
    simp only [Counted.setStrict, ofTy_dec]

/-! ## Decoders go forward -/

/-- A successful call reads at least a word and leaves the frames as they were. -/
def Steady (d : Decoder) : Prop :=
  ∀ fl st v st', d.call fl st = .ok (v, st') → st'.data = st.data ∧ st'.frames = st.frames ∧
    st'.total = st.total ∧ st.pos + 32 ≤ st.data.length ∧ st.pos + 32 ≤ st'.pos

theorem readFixed_ok {st st' : Stream} {b : Bytes} (h : readFixed 32 st = .ok (b, st')) :
    st.pos + 32 ≤ st.data.length ∧ st' = { st with pos := st.pos + 32 } := by
  rcases readFixed_spec st with ⟨b', _, _, h3, h4⟩ | ⟨_, h2⟩
  · rw [h4] at h; injection h with h; injection h with _ h; exact ⟨h3, h.symm⟩
  · rw [h2] at h; cases h

theorem decodeUint256_ok {st st' : Stream} {n : Nat} (h : decodeUint256 st = .ok (n, st')) :
    st.pos + 32 ≤ st.data.length ∧ st' = { st with pos := st.pos + 32 } := by
  rcases decodeUint256_spec st with ⟨b', _, h3, h4⟩ | ⟨_, h2⟩
  · rw [h4] at h; injection h with h; injection h with _ h; exact ⟨h3, h.symm⟩
  · rw [h2] at h; cases h

theorem seek_ok {st st' : Stream} {p : Nat} (h : st.seek p = .ok st') : st' = { st with pos := p } := by
  unfold Stream.seek at h
  split at h
  · cases h
  · injection h with h; exact h.symm

theorem pushFrame_ok {st st' : Stream} {p : Nat} (h : st.pushFrame p = .ok st') :
    st' = { st with frames := (p, st.pos) :: st.frames, total := st.total + p, pos := st.total + p } := by
  have := seek_ok h
  rw [this]; rfl

theorem popFrame_ok {st st' : Stream} {p r : Nat} {fs : List (Nat × Nat)} (hf : st.frames = (p, r) :: fs)
    (h : st.popFrame = .ok st') : st' = { st with frames := fs, total := st.total - p, pos := r } := by
  unfold Stream.popFrame at h
  rw [hf] at h
  rw [seek_ok h]

theorem fixed_steady {n : Nat} {be : Bool} {fn : Bytes → PyM PyVal} {neg : PyVal → Bool} :
    Steady (fixedDecoder (decodeFixed32 n be fn neg)) := by
  intro fl st v st' h
  replace h : decodeFixed32 n be fn neg st = _ := h
  unfold decodeFixed32 at h
  obtain ⟨⟨b, st1⟩, h1, h⟩ := bind_eq_ok.1 h
  obtain ⟨x, _, h⟩ := bind_eq_ok.1 h
  obtain ⟨_, _, h⟩ := bind_eq_ok.1 h
  injection h with h; injection h with _ h
  subst h
  obtain ⟨h2, rfl⟩ := readFixed_ok h1
  exact ⟨rfl, rfl, rfl, h2, Nat.le_refl _⟩

theorem readByteString_ok {strict : Bool} {st st' : Stream} {b : Bytes}
    (h : readByteString strict st = .ok (b, st')) : st'.data = st.data ∧ st'.frames = st.frames ∧
    st'.total = st.total ∧ st.pos + 32 ≤ st.data.length ∧ st.pos + 32 ≤ st'.pos := by
  unfold readByteString at h
  obtain ⟨⟨n, st1⟩, h1, h⟩ := bind_eq_ok.1 h
  obtain ⟨⟨x, st2⟩, h2, h⟩ := bind_eq_ok.1 h
  have h3 : st' = st2 := by
    cases strict with
    | false => injection h with h; injection h with _ h; exact h.symm
    | true =>
      simp only [if_true] at h
      split at h
      · cases h
      · split at h
        · cases h
        · injection h with h; injection h with _ h; exact h.symm
  subst h3
  obtain ⟨h4, rfl⟩ := decodeUint256_ok h1
  unfold Stream.read at h2
  split at h2
  · cases h2
  · injection h2 with h2; injection h2 with _ h2
    subst h2
    exact ⟨rfl, rfl, rfl, h4, Nat.le_add_right _ _⟩

theorem bytes_steady (ref : StrictRef) : Steady (byteStringDecoder ref) := by
  intro fl st v st' h
  unfold Decoder.call at h
  obtain ⟨⟨b, st1⟩, h1, h⟩ := bind_eq_ok.1 h
  injection h with h; injection h with _ h
  subst h
  exact readByteString_ok h1

theorem string_steady (ref : StrictRef) : Steady (stringDecoder ref) := by
  intro fl st v st' h
  unfold Decoder.call at h
  obtain ⟨⟨b, st1⟩, h1, h⟩ := bind_eq_ok.1 h
  obtain ⟨s, _, h⟩ := bind_eq_ok.1 h
  injection h with h; injection h with _ h
  subst h
  exact readByteString_ok h1

theorem headTail_steady {d : Decoder} (hd : Steady d) : Steady (EthAbi.headTail d) := by
  intro fl st v st' h
  unfold Decoder.call at h
  obtain ⟨⟨p, st1⟩, h1, h⟩ := bind_eq_ok.1 h
  obtain ⟨st2, h2, h⟩ := bind_eq_ok.1 h
  obtain ⟨⟨x, st3⟩, h3, h⟩ := bind_eq_ok.1 h
  obtain ⟨st4, h4, h⟩ := bind_eq_ok.1 h
  injection h with h; injection h with _ h
  subst h
  obtain ⟨h5, rfl⟩ := decodeUint256_ok h1
  have h2 := pushFrame_ok h2
  obtain ⟨h6, h7, h8, _, _⟩ := hd _ _ _ _ h3
  subst h2
  have := popFrame_ok h7 h4
  subst this
  refine ⟨h6, rfl, ?_, h5, Nat.le_refl _⟩
  show st3.total - p = st.total
  rw [h8]
  exact Nat.add_sub_cancel _ _

theorem wrapDyn_steady {d : Decoder} (hd : Steady d) : Steady (EthAbi.wrapDyn d) := by
  unfold EthAbi.wrapDyn
  split
  · exact headTail_steady hd
  · exact hd

theorem item_steady {d : Decoder} (hd : Steady d) (b : Bool) :
    Steady (if b then EthAbi.headTail d else d) := by
  cases b
  · exact hd
  · exact headTail_steady hd

/-- What stays as it was, and the position does not go back. -/
def Onward (st st' : Stream) : Prop :=
  st'.data = st.data ∧ st'.frames = st.frames ∧ st'.total = st.total ∧ st.pos ≤ st'.pos

theorem Onward.refl (st : Stream) : Onward st st := ⟨rfl, rfl, rfl, Nat.le_refl _⟩

theorem Onward.trans {a b c : Stream} (h : Onward a b) (h' : Onward b c) : Onward a c :=
  ⟨h'.1.trans h.1, h'.2.1.trans h.2.1, h'.2.2.1.trans h.2.2.1, Nat.le_trans h.2.2.2 h'.2.2.2⟩

theorem Steady.onward {d : Decoder} (hd : Steady d) {fl : Flags} {st st' : Stream} {v : PyVal}
    (h : d.call fl st = .ok (v, st')) : Onward st st' := by
  obtain ⟨h1, h2, h3, _, h5⟩ := hd _ _ _ _ h
  exact ⟨h1, h2, h3, by omega⟩

theorem checkLoop_onward {ds : List Decoder} (hs : ∀ d ∈ ds, Steady d) {fl : Flags} {c e : Nat}
    {st st' : Stream} (h : tupleCheckLoop fl c e ds st = .ok st') : Onward st st' := by
  induction ds generalizing st with
  | nil => injection h with h; subst h; exact .refl _
  | cons d ds ih =>
    have ih := fun {st : Stream} => ih (st := st) (fun d hd => hs d (by simp [hd]))
    unfold tupleCheckLoop at h
    simp only at h
    split at h
    · obtain ⟨⟨n, st2⟩, h2, h⟩ := bind_eq_ok.1 h
      simp only at h
      split at h
      · cases h
      · refine Onward.trans ?_ (ih h)
        obtain ⟨_, rfl⟩ := decodeUint256_ok h2
        exact ⟨rfl, rfl, rfl, Nat.le_add_right _ _⟩
    · obtain ⟨⟨n, st2⟩, h2, h⟩ := bind_eq_ok.1 h
      exact ((hs d (by simp)).onward h2).trans (ih h)

theorem tuplePointers_ok {ds : List Decoder} (hs : ∀ d ∈ ds, Steady d) {fl : Flags}
    {st st' : Stream} (h : tupleValidatePointers fl ds st = .ok st') : st' = st := by
  unfold tupleValidatePointers at h
  obtain ⟨st1, h1, h⟩ := bind_eq_ok.1 h
  obtain ⟨h2, h3, h4, _⟩ := checkLoop_onward hs h1
  rw [seek_ok h]
  cases st1; cases st
  simp_all

theorem arrayLoop_ok {c e n : Nat} {st st' : Stream} (h : arrayCheckLoop c e n st = .ok st') :
    Onward st st' := by
  induction n generalizing st with
  | zero => injection h with h; subst h; exact .refl _
  | succ n ih =>
    unfold arrayCheckLoop at h
    obtain ⟨⟨k, st1⟩, h1, h⟩ := bind_eq_ok.1 h
    simp only at h
    split at h
    · cases h
    · refine Onward.trans ?_ (ih h)
      obtain ⟨_, rfl⟩ := decodeUint256_ok h1
      exact ⟨rfl, rfl, rfl, Nat.le_add_right _ _⟩

theorem arrayPointers_ok {d : Decoder} {n : Nat} {st st' : Stream}
    (h : arrayValidatePointers d n st = .ok st') : st' = st := by
  unfold arrayValidatePointers at h
  split at h
  · obtain ⟨st1, h1, h⟩ := bind_eq_ok.1 h
    obtain ⟨h2, h3, h4, _⟩ := arrayLoop_ok h1
    rw [seek_ok h]
    cases st1; cases st
    simp_all
  · injection h with h; exact h.symm

theorem each_onward {ds : List Decoder} (hs : ∀ d ∈ ds, Steady d) {fl : Flags}
    {st st' : Stream} {vs : List PyVal} (h : decodeEach fl ds st = .ok (vs, st')) : Onward st st' := by
  induction ds generalizing st vs with
  | nil => injection h with h; injection h with _ h; subst h; exact .refl _
  | cons d ds ih =>
    unfold decodeEach at h
    obtain ⟨⟨v, st1⟩, h1, h⟩ := bind_eq_ok.1 h
    obtain ⟨⟨vs', st2⟩, h2, h⟩ := bind_eq_ok.1 h
    injection h with h; injection h with _ h; subst h
    exact ((hs d (by simp)).onward h1).trans (ih (fun d hd => hs d (by simp [hd])) h2)

theorem n_onward {d : Decoder} (hs : Steady d) {fl : Flags} {n : Nat}
    {st st' : Stream} {vs : List PyVal} (h : decodeN fl d n st = .ok (vs, st')) : Onward st st' := by
  induction n generalizing st vs with
  | zero => injection h with h; injection h with _ h; subst h; exact .refl _
  | succ n ih =>
    unfold decodeN at h
    obtain ⟨⟨v, st1⟩, h1, h⟩ := bind_eq_ok.1 h
    obtain ⟨⟨vs', st2⟩, h2, h⟩ := bind_eq_ok.1 h
    injection h with h; injection h with _ h; subst h
    exact (hs.onward h1).trans (ih h2)

theorem tuple_steady {ds : List Decoder} (hne : ds ≠ []) (hs : ∀ d ∈ ds, Steady d) : Steady (mkTupleD ds) := by
  intro fl st v st' h
  replace h : tupleDecode fl (ds.map EthAbi.wrapDyn) st = _ := h
  have hs' : ∀ d ∈ ds.map EthAbi.wrapDyn, Steady d := by
    intro d hd
    obtain ⟨d', h1, rfl⟩ := List.mem_map.1 hd
    exact wrapDyn_steady (hs d' h1)
  unfold tupleDecode at h
  obtain ⟨st1, h1, h⟩ := bind_eq_ok.1 h
  obtain ⟨⟨vs, st2⟩, h2, h⟩ := bind_eq_ok.1 h
  injection h with h; injection h with _ h; subst h
  have := tuplePointers_ok hs' h1
  subst this
  cases ds with
  | nil => exact absurd rfl hne
  | cons d ds =>
    rw [List.map_cons] at h2
    unfold decodeEach at h2
    obtain ⟨⟨v, st3⟩, h3, h⟩ := bind_eq_ok.1 h2
    obtain ⟨⟨vs', st4⟩, h4, h⟩ := bind_eq_ok.1 h
    injection h with h; injection h with _ h; subst h
    obtain ⟨g1, g2, g3, g4, g5⟩ := hs' _ (by simp) _ _ _ _ h3
    obtain ⟨k1, k2, k3, k4⟩ := each_onward (fun d hd => hs' d (by simp at hd ⊢; right; exact hd)) h4
    exact ⟨k1.trans g1, k2.trans g2, k3.trans g3, g4, by omega⟩

theorem sized_steady {k : Nat} (hk : 0 < k) {d : Decoder} (hd : Steady d) (b : Bool) :
    Steady (sizedDec k b d) := by
  intro fl st v st' h
  replace h : sizedArrayDecode fl (if b then EthAbi.headTail d else d) k st = _ := h
  unfold sizedArrayDecode at h
  obtain ⟨st1, h1, h⟩ := bind_eq_ok.1 h
  obtain ⟨⟨vs, st2⟩, h2, h⟩ := bind_eq_ok.1 h
  injection h with h; injection h with _ h; subst h
  have := arrayPointers_ok h1
  subst this
  obtain ⟨k, rfl⟩ : ∃ j, k = j + 1 := ⟨k - 1, by omega⟩
  unfold decodeN at h2
  obtain ⟨⟨v, st3⟩, h3, h⟩ := bind_eq_ok.1 h2
  obtain ⟨⟨vs', st4⟩, h4, h⟩ := bind_eq_ok.1 h
  injection h with h; injection h with _ h; subst h
  have hi := item_steady hd b
  obtain ⟨g1, g2, g3, g4, g5⟩ := hi _ _ _ _ h3
  obtain ⟨k1, k2, k3, k4⟩ := n_onward hi h4
  exact ⟨k1.trans g1, k2.trans g2, k3.trans g3, g4, by omega⟩

theorem dyn_steady {d : Decoder} (hd : Steady d) (b : Bool) : Steady (dynDec b d) := by
  intro fl st v st' h
  replace h : dynamicArrayDecode fl (if b then EthAbi.headTail d else d) st = _ := h
  unfold dynamicArrayDecode at h
  obtain ⟨⟨k, st1⟩, h1, h⟩ := bind_eq_ok.1 h
  obtain ⟨st2, h2, h⟩ := bind_eq_ok.1 h
  obtain ⟨st3, h3, h⟩ := bind_eq_ok.1 h
  obtain ⟨⟨x, st4⟩, h4, h⟩ := bind_eq_ok.1 h
  obtain ⟨st5, h5, h⟩ := bind_eq_ok.1 h
  injection h with h; injection h with _ h; subst h
  have := arrayPointers_ok h3
  subst this
  obtain ⟨g, rfl⟩ := decodeUint256_ok h1
  have h2 := pushFrame_ok h2
  obtain ⟨k1, k2, k3, k4⟩ := n_onward (item_steady hd b) h4
  subst h2
  have := popFrame_ok k2 h5
  subst this
  refine ⟨k1, rfl, ?_, g, Nat.le_refl _⟩
  show st4.total - 32 = st.total
  rw [k3]
  exact Nat.add_sub_cancel _ _

theorem decOf_steady {t : Ty} (h : t.Valid) : Steady (decOf t) := by
  induction t using Ty.ind with
  | bytes => exact bytes_steady _
  | string => exact string_steady _
  | sized k t ih => exact sized_steady h.1 (ih h.2) _
  | dyn t ih => exact dyn_steady (ih h) _
  | tuple ts ih =>
    refine tuple_steady (ds := decsOf ts) ?_ ?_
    · obtain ⟨h1, _⟩ := h
      cases ts with
      | nil => exact absurd rfl h1
      | cons _ _ => simp [decsOf]
    · intro d hd
      rw [decsOf_map] at hd
      obtain ⟨t, ht, rfl⟩ := List.mem_map.1 hd
      refine ih t ht ?_
      have h2 := h.2
      clear h ih hd
      induction ts with
      | nil => cases ht
      | cons u us ihu =>
        rcases List.mem_cons.1 ht with rfl | ht
        · exact h2.1
        · exact ihu ht h2.2
  | _ => exact fixed_steady

theorem setStrict_steady {t : Ty} (h : t.Valid) (strict : Bool) : Steady ((decOf t).setStrict strict) := by
  have hd := decOf_steady h
  cases t with
  | bytes => exact bytes_steady _
  | string => exact string_steady _
  | sized k t =>
    intro fl st v st' hc
    refine hd fl st v st' (hc ▸ ?_)
    unfold Decoder.setStrict
    split <;> rfl
  | dyn t => intro fl st v st' hc; exact hd fl st v st' hc
  | tuple ts =>
    intro fl st v st' hc
    refine hd fl st v st' (hc ▸ ?_)
    unfold Decoder.setStrict
    split <;> rfl
  | _ => exact fixed_steady

/-! ## The bound -/

/-- On data of less than `32 * N` bytes a call makes at most `B` calls. -/
def Within (N B : Nat) (c : Counted) : Prop :=
  Steady c.dec ∧ ∀ fl st, st.data.length < 32 * N → c.steps fl st ≤ B

theorem wrapDyn_dec (c : Counted) : (wrapDyn c).dec = EthAbi.wrapDyn c.dec := by
  unfold wrapDyn EthAbi.wrapDyn
  split <;> rfl

theorem after_le {α : Type} {r : PyM α} {f : α → Nat} {B : Nat} (h : ∀ a, r = .ok a → f a ≤ B) :
    after r f ≤ B := by
  cases r with
  | ok a => exact h a rfl
  | error e => exact Nat.zero_le _

theorem wrapDyn_within {N B : Nat} {c : Counted} (h : Within N B c) : Within N (B + 2) (wrapDyn c) := by
  refine ⟨by rw [wrapDyn_dec]; exact wrapDyn_steady h.1, fun fl st hl => ?_⟩
  unfold wrapDyn
  split
  · have : after (decodeUint256 st) (fun x => after (x.2.pushFrame x.1) fun st => c.steps fl st) ≤ B := by
      refine after_le fun ⟨p, st1⟩ h1 => after_le fun st2 h2 => h.2 fl _ ?_
      obtain ⟨_, rfl⟩ := decodeUint256_ok h1
      rw [pushFrame_ok h2]
      exact hl
    simp only [headTail]
    omega
  · exact Nat.le_add_right_of_le (h.2 fl st hl)

theorem checkLoop_one {ds : List Decoder} {d : Decoder} {fl : Flags} {c e : Nat} {st : Stream} :
    tupleCheckLoop fl c e (d :: ds) st = (tupleCheckLoop fl c e [d] st >>= tupleCheckLoop fl c e ds) := by
  simp only [tupleCheckLoop]
  split
  · cases decodeUint256 st with
    | error x => rfl
    | ok r =>
      obtain ⟨n, st1⟩ := r
      simp only [ok_bind]
      split <;> rfl
  · cases d.call fl st with
    | error x => rfl
    | ok r => rfl

/-- Bounds, one for each decoder. -/
def WithinAll (N : Nat) (Bs : List Nat) (cs : List Counted) : Prop :=
  List.Forall₂ (fun B c => Within N B c) Bs cs

theorem check_le {N : Nat} {Bs : List Nat} {cs : List Counted} (h : WithinAll N Bs cs)
    (hB : ∀ B ∈ Bs, 0 < B) {fl : Flags}
    {c e : Nat} {st : Stream} (hl : st.data.length < 32 * N) : checkSteps fl c e cs st ≤ Bs.sum := by
  unfold WithinAll at h
  induction h generalizing st with
  | nil => exact Nat.zero_le _
  | @cons B x Bs cs h1 _ ih =>
    have hB1 := hB B (by simp)
    replace ih := fun {st : Stream} => ih (st := st) (fun B hb => hB B (by simp [hb]))
    simp only [checkSteps, List.sum_cons]
    refine Nat.add_le_add ?_ (after_le fun st' h2 => ih ?_)
    · split
      · exact hB1
      · exact h1.2 fl st hl
    · rw [(checkLoop_onward (ds := [x.dec]) (by simpa using h1.1) h2).1]
      exact hl

theorem each_le {N : Nat} {Bs : List Nat} {cs : List Counted} (h : WithinAll N Bs cs) {fl : Flags}
    {st : Stream} (hl : st.data.length < 32 * N) : eachSteps fl cs st ≤ Bs.sum := by
  unfold WithinAll at h
  induction h generalizing st with
  | nil => exact Nat.zero_le _
  | cons h1 _ ih =>
    simp only [eachSteps, List.sum_cons]
    refine Nat.add_le_add (h1.2 fl st hl) (after_le fun ⟨v, st'⟩ h2 => ih ?_)
    rw [(h1.1.onward h2).1]
    exact hl

theorem tuple_le {N : Nat} {Bs : List Nat} {cs : List Counted} (h : WithinAll N Bs cs)
    {fl : Flags} {st : Stream} (hl : st.data.length < 32 * N) :
    tupleSteps fl (cs.map wrapDyn) st ≤ 1 + 2 * (Bs.map (· + 2)).sum := by
  have hw : WithinAll N (Bs.map (· + 2)) (cs.map wrapDyn) := by
    unfold WithinAll at h ⊢
    induction h with
    | nil => exact .nil
    | cons h1 _ ih => exact .cons (wrapDyn_within h1) ih
  have hs : ∀ d ∈ (cs.map wrapDyn).map (·.dec), Steady d := by
    intro d hd
    obtain ⟨c, hc, rfl⟩ := List.mem_map.1 hd
    obtain ⟨_, _, h1⟩ := forall₂_mem_right hw hc
    exact h1.1
  unfold tupleSteps
  have h1 := check_le hw (fun B hB => by
    obtain ⟨x, _, rfl⟩ := List.mem_map.1 hB
    omega) (fl := fl) (c := st.pos) (e := st.pos + 32 * lenOfHead ((cs.map wrapDyn).map (·.dec))) hl
  have h2 : after (tupleValidatePointers fl ((cs.map wrapDyn).map (·.dec)) st)
      (fun st => eachSteps fl (cs.map wrapDyn) st) ≤ (Bs.map (· + 2)).sum := by
    refine after_le fun st' h3 => each_le hw ?_
    rw [tuplePointers_ok hs h3]
    exact hl
  omega

theorem ptr_le {c e n : Nat} {st : Stream} :
    ptrSteps c e n st ≤ (st.data.length - st.pos) / 32 + 1 := by
  induction n generalizing st with
  | zero => exact Nat.zero_le _
  | succ n ih =>
    simp only [ptrSteps]
    have : after (arrayCheckLoop c e 1 st) (fun st => ptrSteps c e n st) ≤
        (st.data.length - st.pos) / 32 := by
      refine after_le fun st' h => ?_
      simp only [arrayCheckLoop] at h
      obtain ⟨⟨k, st1⟩, h1, h⟩ := bind_eq_ok.1 h
      simp only at h
      split at h
      · cases h
      · injection h with h; subst h
        obtain ⟨h2, rfl⟩ := decodeUint256_ok h1
        refine Nat.le_trans ih ?_
        show (st.data.length - (st.pos + 32)) / 32 + 1 ≤ _
        omega
    omega

theorem n_le {N B : Nat} {c : Counted} (h : Within N B c) {fl : Flags} {n : Nat} {st : Stream}
    (hl : st.data.length < 32 * N) :
    nSteps fl c n st ≤ ((st.data.length - st.pos) / 32 + 1) * B := by
  induction n generalizing st with
  | zero => exact Nat.zero_le _
  | succ n ih =>
    simp only [nSteps]
    have : after (c.dec.call fl st) (fun x => nSteps fl c n x.2) ≤
        (st.data.length - st.pos) / 32 * B := by
      refine after_le fun ⟨v, st'⟩ h1 => ?_
      obtain ⟨h2, _, _, h3, h4⟩ := h.1 _ _ _ _ h1
      refine Nat.le_trans (ih (by rw [h2]; exact hl)) (Nat.mul_le_mul_right _ ?_)
      simp only [h2]
      omega
    have h5 := h.2 fl st hl
    rw [Nat.add_mul, Nat.one_mul]
    omega

theorem array_le {N B : Nat} {c : Counted} (h : Within N B c) {fl : Flags} {n : Nat} {st : Stream}
    (hl : st.data.length < 32 * N) : arraySteps fl (wrapDyn c) n st ≤ N + N * (B + 2) := by
  unfold arraySteps
  have hN : (st.data.length - st.pos) / 32 + 1 ≤ N := by omega
  refine Nat.add_le_add ?_ (after_le fun st' h1 => ?_)
  · split
    · exact Nat.le_trans ptr_le hN
    · exact Nat.zero_le _
  · rw [arrayPointers_ok h1]
    exact Nat.le_trans (n_le (wrapDyn_within h) hl) (Nat.mul_le_mul_right _ hN)

mutual
/-- The size of a type, for the bound. -/
def weight : Ty → Nat
  | .sized _ t => weight t + 1
  | .dyn t => weight t + 1
  | .tuple ts => weights ts + 1
  | _ => 1
/-- The size of a list of types. -/
def weights : List Ty → Nat
  | [] => 0
  | t :: ts => weight t + 1 + weights ts
end

/-- A decoder within the bound for its type. -/
def Good (N a w : Nat) (c : Counted) : Prop := Within N (4 ^ w * N ^ a) c

theorem pow_pos' {N : Nat} (hN : 0 < N) (w a : Nat) : 0 < 4 ^ w * N ^ a :=
  Nat.mul_pos (Nat.pow_pos (by omega)) (Nat.pow_pos hN)

theorem within_mono {N B B' : Nat} {c : Counted} (h : Within N B c) (hB : B ≤ B') : Within N B' c :=
  ⟨h.1, fun fl st hl => Nat.le_trans (h.2 fl st hl) hB⟩

theorem good_mono {N a a' w : Nat} {c : Counted} (hN : 0 < N) (h : Good N a w c) (ha : a ≤ a') :
    Good N a' w c :=
  within_mono h (Nat.mul_le_mul_left _ (Nat.pow_le_pow_right hN ha))

theorem array_bound {N a w : Nat} (hN : 0 < N) (hw : 0 < w) :
    2 + (N + N * (4 ^ w * N ^ a + 2)) ≤ 4 ^ (w + 1) * N ^ (a + 1) := by
  have h1 : 4 ≤ 4 ^ w * N ^ a := by
    have : 4 ^ 1 ≤ 4 ^ w := Nat.pow_le_pow_right (by omega) hw
    have h2 := Nat.pow_pos (n := a) hN
    calc 4 = 4 * 1 := rfl
      _ ≤ _ := Nat.mul_le_mul (by omega) h2
  have e : 4 ^ (w + 1) * N ^ (a + 1) = 4 * (N * (4 ^ w * N ^ a)) := by
    rw [Nat.pow_succ, Nat.pow_succ]; ring
  rw [e]
  generalize 4 ^ w * N ^ a = x at *
  rw [Nat.mul_add]
  have : N * 4 ≤ N * x := Nat.mul_le_mul_left _ h1
  omega

theorem sum_bound {N a : Nat} (hN : 0 < N) (ws : List Nat) :
    ((ws.map fun w => 4 ^ w * N ^ a + 2).sum + 1) ≤ 4 ^ (ws.map (· + 1)).sum * N ^ a := by
  have hA := Nat.pow_pos (n := a) hN
  induction ws with
  | nil => simpa using Nat.succ_le_of_lt hA
  | cons w ws ih =>
    simp only [List.map_cons, List.sum_cons]
    rw [Nat.pow_add]
    have hx : 4 ^ w * N ^ a + 2 + N ^ a ≤ 4 ^ (w + 1) * N ^ a := by
      have h1 : 1 * N ^ a ≤ 4 ^ w * N ^ a := Nat.mul_le_mul_right _ (Nat.pow_pos (by omega))
      rw [Nat.pow_succ, Nat.mul_comm (4 ^ w) 4, Nat.mul_assoc]
      omega
    have hq : 0 < 4 ^ (ws.map (· + 1)).sum := Nat.pow_pos (by omega)
    generalize hQ : 4 ^ (ws.map (· + 1)).sum = Q at *
    generalize hP : 4 ^ (w + 1) = P at *
    generalize N ^ a = A at *
    have h2 : (P * A) * Q = P * Q * A := by ring
    have h3 : (4 ^ w * A + 2 + A) * Q ≤ P * A * Q := Nat.mul_le_mul_right _ hx
    rw [← h2]
    refine Nat.le_trans ?_ h3
    rw [Nat.add_mul]
    have h4 : 4 ^ w * A + 2 ≤ (4 ^ w * A + 2) * Q := Nat.le_mul_of_pos_right _ hq
    have h5 : A * Q = Q * A := Nat.mul_comm _ _
    omega

theorem tuple_bound {N a : Nat} (hN : 0 < N) (ws : List Nat) :
    1 + 2 * (ws.map fun w => 4 ^ w * N ^ a + 2).sum ≤ 4 ^ ((ws.map (· + 1)).sum + 1) * N ^ a := by
  have := sum_bound (a := a) hN ws
  rw [Nat.pow_succ, Nat.mul_comm (4 ^ _) 4, Nat.mul_assoc]
  omega

theorem weights_eq (ts : List Ty) : weights ts = ((ts.map weight).map (· + 1)).sum := by
  induction ts with
  | nil => rfl
  | cons t ts ih => simp only [weights, List.map_cons, List.sum_cons, ih]

theorem nesting_mem {t : Ty} {ts : List Ty} (h : t ∈ ts) : arrayNesting t ≤ arrayNestingAll ts := by
  induction ts with
  | nil => cases h
  | cons u us ih =>
    rw [arrayNestingAll]
    rcases List.mem_cons.1 h with rfl | h
    · omega
    · have := ih h; omega

theorem weight_pos (t : Ty) : 0 < weight t := by cases t <;> simp [weight]

theorem leaf_good' {N k : Nat} (hk : k ≤ 2) {d : Decoder} (hd : Steady d) :
    Good N 0 1 (const k d) :=
  ⟨hd, fun _ _ _ => by simp only [const, Nat.pow_zero, Nat.pow_one, Nat.mul_one]; omega⟩

/-- Many components within their bounds. -/
theorem all_good {N a : Nat} (hN : 0 < N) {cs : List Counted} {ts : List Ty}
    (h : List.Forall₂ (fun t c => Good N (arrayNesting t) (weight t) c) ts cs)
    (ha : ∀ t ∈ ts, arrayNesting t ≤ a) {fl : Flags} {st : Stream} (hl : st.data.length < 32 * N) :
    tupleSteps fl (cs.map wrapDyn) st ≤ 4 ^ (weights ts + 1) * N ^ a := by
  have hw : WithinAll N (ts.map fun t => 4 ^ weight t * N ^ a) cs := by
    unfold WithinAll
    induction h with
    | nil => exact .nil
    | cons h1 _ ih =>
      exact .cons (good_mono hN h1 (ha _ (by simp))) (ih fun t ht => ha t (by simp [ht]))
  refine Nat.le_trans (tuple_le hw hl) ?_
  rw [weights_eq]
  have := tuple_bound (a := a) hN (ts.map weight)
  simp only [List.map_map] at this ⊢
  exact this

theorem ofTy_good {N : Nat} (hN : 0 < N) {t : Ty} (h : t.Valid) :
    Good N (arrayNesting t) (weight t) (ofTy t) := by
  induction t using Ty.ind with
  | bytes => exact leaf_good' (Nat.le_refl _) (decOf_steady h)
  | string => exact leaf_good' (Nat.le_refl _) (decOf_steady h)
  | sized k t ih =>
    refine ⟨decOf_steady h, fun fl st hl => ?_⟩
    have h1 := array_le (ih h.2) (fl := fl) (n := k) hl
    have h2 := array_bound (a := arrayNesting t) hN (weight_pos t)
    show 1 + arraySteps fl (wrapDyn (ofTy t)) k st ≤ 4 ^ (weight t + 1) * N ^ (arrayNesting t + 1)
    omega
  | dyn t ih =>
    refine ⟨decOf_steady h, fun fl st hl => ?_⟩
    have h2 := array_bound (a := arrayNesting t) hN (weight_pos t)
    show 2 + after (decodeUint256 st) (fun (k, st) => after (st.pushFrame 32) fun st =>
        arraySteps fl (wrapDyn (ofTy t)) k st) ≤ 4 ^ (weight t + 1) * N ^ (arrayNesting t + 1)
    refine Nat.le_trans (Nat.add_le_add_left (after_le fun ⟨k, st1⟩ h3 => after_le fun st2 h4 => ?_) 2) h2
    refine array_le (ih h) ?_
    obtain ⟨_, rfl⟩ := decodeUint256_ok h3
    rw [pushFrame_ok h4]
    exact hl
  | tuple ts ih =>
    refine ⟨decOf_steady h, fun fl st hl => ?_⟩
    show tupleSteps fl ((ofTys ts).map wrapDyn) st ≤ 4 ^ (weights ts + 1) * N ^ arrayNestingAll ts
    refine all_good hN ?_ (fun t ht => nesting_mem ht) hl
    have h2 := h.2
    rw [ofTys_map]
    clear h hl
    induction ts with
    | nil => exact .nil
    | cons u us ihu =>
      exact .cons (ih u (by simp) h2.1) (ihu (fun t ht => ih t (by simp [ht])) h2.2)
  | _ => exact leaf_good' (by omega) (decOf_steady h)

/-- The type string is at least as long as the size of the type. -/
theorem spells_weight [Ext] {lax : Bool} {s : TypeStr} {t : Ty} (h : Spells lax s t) : weight t ≤ s.length := by
  refine Spells.rec (motive_1 := fun s t _ => weight t ≤ s.length)
    (motive_2 := fun s ts _ => weights ts ≤ s.length + 1)
    ?_ ?_ ?_ ?_ ?_ ?_ ?_ ?_ ?_ ?_ ?_ ?_ ?_ ?_ ?_ ?_ ?_ ?_ ?_ ?_ ?_ h <;> intros <;>
    simp_all [weight, weights] <;> omega

theorem steps_bound [Ext] {types : List TypeStr} {ts : List Ty} (h : List.Forall₂ Supported types ts)
    (data : Bytes) (strict : Bool) {a : Nat} (ha : ∀ t ∈ ts, arrayNesting t ≤ a) :
    decodeSteps types data strict ≤
      4 ^ (charCount types + types.length + 1) * (data.length / 32 + 1) ^ a := by
  rw [decodeSteps_eq h]
  have hN : 0 < data.length / 32 + 1 := by omega
  refine Nat.le_trans (all_good (ts := ts) hN ?_ ha (by show data.length < _; omega)) ?_
  · clear ha
    induction h with
    | nil => exact .nil
    | cons h1 _ ih =>
      refine .cons ?_ ih
      have hv := supported_valid h1
      refine ⟨?_, (ofTy_good hN hv).2⟩
      simp only [Counted.setStrict, ofTy_dec]
      exact setStrict_steady hv strict
  · refine Nat.mul_le_mul_right _ (Nat.pow_le_pow_right (by omega) ?_)
    clear ha
    induction h with
    | nil => simp [weights]
    | cons h1 _ ih =>
      have := spells_weight h1.1
      simp only [weights, charCount, List.map_cons, List.sum_cons, List.length_cons] at ih ⊢
      omega

end Counted
end EthAbi
