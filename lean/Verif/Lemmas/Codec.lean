import Verif.Lemmas.CallSpec
import Verif.Lemmas.Lookup
import Verif.Lemmas.ReadsFacts
import Verif.Lemmas.ToPy
import Verif.Model.Codec

/-! # `encode`, `decode` and `is_encodable` on every list of type strings -/
namespace EthAbi
open Spec

theorem mapPyM_ok {α β : Type} {f : α → PyM β} {xs : List α} {ys : List β} :
    mapPyM f xs = .ok ys ↔ List.Forall₂ (fun x y => f x = .ok y) xs ys := by
  induction xs generalizing ys with
  | nil =>
    simp only [mapPyM, List.forall₂_nil_left_iff]
    exact ⟨fun h => by injection h with h; exact h.symm, fun h => by rw [h]⟩
  | cons x xs ih =>
    simp only [mapPyM, bind_eq_ok, List.forall₂_cons_left_iff]
    constructor
    · rintro ⟨y, h1, ys', h2, h3⟩
      injection h3 with h3
      exact ⟨y, ys', h1, ih.1 h2, h3.symm⟩
    · rintro ⟨y, ys', h1, h2, rfl⟩
      exact ⟨y, h1, ys', ih.2 h2, rfl⟩

theorem mapPyM_error {α β : Type} {f : α → PyM β} {xs : List α} {e : Exc}
    (h : mapPyM f xs = .error e) : ∃ x ∈ xs, f x = .error e := by
  induction xs with
  | nil => cases h
  | cons x xs ih =>
    simp only [mapPyM, bind_eq_error] at h
    rcases h with h | ⟨y, _, h | ⟨ys, _, h⟩⟩
    · exact ⟨x, by simp, h⟩
    · obtain ⟨z, hz, h⟩ := ih h
      exact ⟨z, by simp [hz], h⟩
    · cases h

/-- The default or the packed registry. -/
def regBy [Ext] (pk : Bool) : Registry := if pk then packedRegistry else defaultRegistry

theorem getEncoder_by [Ext] (pk : Bool) (s : TypeStr) :
    (∃ t, Supported s t ∧ getEncoder (regBy pk) s = .ok (encOf pk t)) ∨
    ((∀ t, ¬ Supported s t) ∧ ∃ e, getEncoder (regBy pk) s = .error e ∧ TypeErr e) := by
  cases pk
  · exact getEncoder_default s
  · exact getEncoder_packed s

theorem getEncoder_supported [Ext] (pk : Bool) {s : TypeStr} {t : Ty} (h : Supported s t) :
    getEncoder (regBy pk) s = .ok (encOf pk t) := by
  rcases getEncoder_by pk s with ⟨t', h1, h2⟩ | ⟨h1, _⟩
  · rw [h2, supported_unique h h1]
  · exact absurd h (h1 t)

theorem getDecoder_supported [Ext] {s : TypeStr} {t : Ty} (h : Supported s t) (strict : Bool) :
    getDecoder defaultRegistry s strict = .ok ((decOf t).setStrict strict) := by
  rcases getDecoder_default s strict with ⟨t', h1, h2⟩ | ⟨h1, _⟩
  · rw [h2, supported_unique h h1]
  · exact absurd h (h1 t)

theorem supported_valid [Ext] {s : TypeStr} {t : Ty} (h : Supported s t) : t.Valid := spells_valid h.1

theorem supportedAll_valid [Ext] {types : List TypeStr} {ts : List Ty}
    (h : List.Forall₂ Supported types ts) : ∀ t ∈ ts, t.Valid := by
  intro t ht
  obtain ⟨s, _, hs⟩ := forall₂_mem_right h ht
  exact supported_valid hs

theorem supportedAll_unique [Ext] {types : List TypeStr} {ts us : List Ty}
    (h : List.Forall₂ Supported types ts) (h' : List.Forall₂ Supported types us) : ts = us := by
  induction h generalizing us with
  | nil => cases h'; rfl
  | cons h1 _ ih =>
    cases h' with
    | cons h3 h4 => rw [supported_unique h1 h3, ih h4]

theorem encoders_supported [Ext] (pk : Bool) {types : List TypeStr} {ts : List Ty}
    (h : List.Forall₂ Supported types ts) :
    mapPyM (getEncoder (regBy pk)) types = .ok (encsOf pk ts) := by
  rw [mapPyM_ok]
  induction h with
  | nil => exact .nil
  | cons h1 _ ih => exact .cons (getEncoder_supported pk h1) ih

/-- A list of type strings is supported, or looking it up raises. -/
theorem supportedAll_or [Ext] (types : List TypeStr) :
    (∃ ts, List.Forall₂ Supported types ts) ∨
      ((∀ ts, ¬ List.Forall₂ Supported types ts) ∧
        (∀ pk, ∃ e, mapPyM (getEncoder (regBy pk)) types = .error e ∧ TypeErr e) ∧
        ∀ strict, ∃ e, mapPyM (fun s => getDecoder defaultRegistry s strict) types = .error e ∧
          TypeErr e) := by
  induction types with
  | nil => exact Or.inl ⟨[], .nil⟩
  | cons s types ih =>
    by_cases hs : ∃ t, Supported s t
    · obtain ⟨t, ht⟩ := hs
      rcases ih with ⟨ts, hts⟩ | ⟨h1, h2, h3⟩
      · exact Or.inl ⟨t :: ts, .cons ht hts⟩
      · refine Or.inr ⟨?_, ?_, ?_⟩
        · intro us hus
          cases hus with
          | cons _ h => exact h1 _ h
        · intro pk
          obtain ⟨e, he, hT⟩ := h2 pk
          exact ⟨e, by simp only [mapPyM, getEncoder_supported pk ht, ok_bind, he, error_bind], hT⟩
        · intro strict
          obtain ⟨e, he, hT⟩ := h3 strict
          exact ⟨e, by simp only [mapPyM, getDecoder_supported ht, ok_bind, he, error_bind], hT⟩
    · refine Or.inr ⟨?_, ?_, ?_⟩
      · intro us hus
        cases hus with
        | cons h _ => exact hs ⟨_, h⟩
      · intro pk
        rcases getEncoder_by pk s with ⟨t, h, _⟩ | ⟨_, e, he, hT⟩
        · exact absurd ⟨t, h⟩ hs
        · exact ⟨e, by simp only [mapPyM, he, error_bind], hT⟩
      · intro strict
        rcases getDecoder_default s strict with ⟨t, h, _⟩ | ⟨_, e, he, hT⟩
        · exact absurd ⟨t, h⟩ hs
        · exact ⟨e, by simp only [mapPyM, he, error_bind], hT⟩

/-! ## Encoding -/

/-- The items of a list or tuple. -/
def listOrTuple? : PyVal → Option (List PyVal)
  | .list vs => some vs
  | .tuple vs => some vs
  | _ => none

theorem listOrTuple_like {v : PyVal} {vs : List PyVal} (h : listOrTuple? v = some vs) : asListLike? v = some vs := by
  cases v <;> first | exact h | cases h

theorem asListLike_param {args : PyVal} {vs : List PyVal} (h : listOrTuple? args = some vs) :
    validateListLikeParam args = .ok () := by
  cases args <;> first | rfl | cases h

theorem asListLike_none {args : PyVal} (h : listOrTuple? args = none) :
    validateListLikeParam args = .error .typeError := by
  cases args <;> first | rfl | cases h

theorem encode_eq [Ext] (pk : Bool) {types : List TypeStr} {ts : List Ty}
    (h : List.Forall₂ Supported types ts) {args : PyVal} {vs : List PyVal}
    (ha : listOrTuple? args = some vs) :
    (regBy pk).encode types args = (mkTuple (encsOf pk ts)).call args := by
  simp only [Registry.encode, asListLike_param ha, ok_bind, encoders_supported pk h]

/-- The specified encoding of a list of arguments, standard or packed. -/
def encTop (pk : Bool) (ts : List Ty) (xs : List Val) : Bytes :=
  if pk then encPackedAll ts xs else layout (encAll ts xs)

theorem top_good [Ext] (pk : Bool) {ts : List Ty} (hv : ∀ t ∈ ts, t.Valid) :
    EncGood (.tuple ts) (mkTuple (encsOf pk ts)) (ts.any (dynBy pk)) (fun x => match x with
      | .seq xs => encTop pk ts xs
      | _ => []) := by
  refine (tuple_good pk ts (fun t ht => encOf_good pk t (hv t ht))).congr ?_
  intro x hx
  cases x <;> try rfl
  cases pk
  · exact congrArg layout (elems_std ts _ (fun t ht => encOf_good false t (hv t ht)))
  · exact elems_packed ts _ (fun t ht => encOf_good true t (hv t ht))

/-- A successful `encode`. -/
theorem encode_ok [Ext] {pk : Bool} {types : List TypeStr} {args : PyVal} {b : Bytes}
    (h : (regBy pk).encode types args = .ok b) :
    ∃ ts vs, List.Forall₂ Supported types ts ∧ listOrTuple? args = some vs ∧
      vs.length = ts.length ∧
      (OnGridAll ts vs → ∃ xs, denoteAll ts vs = some xs ∧ b = encTop pk ts xs) := by
  cases ha : listOrTuple? args with
  | none => simp only [Registry.encode, asListLike_none ha, error_bind] at h; cases h
  | some vs =>
    rcases supportedAll_or types with ⟨ts, hts⟩ | ⟨_, h2, _⟩
    · rw [encode_eq pk hts ha] at h
      have hv := supportedAll_valid hts
      refine ⟨ts, vs, hts, rfl, ?_, ?_⟩
      · have := (top_good pk hv).callVal args b h
        have hval : tupleValidate (encsOf pk ts) args = .ok () := this
        have hl : (encsOf pk ts).length = ts.length := by
          clear * -
          induction ts with
          | nil => rfl
          | cons t ts ih => simp [encsOf, ih]
        simp only [tupleValidate, listOrTuple_like ha] at hval
        split at hval
        · rw [invalidate_eq] at hval; cases hval
        · omega
      · intro hg
        obtain ⟨vs', xs, h1, h3, rfl⟩ := tuple_call pk ts hv (fun t ht => call_spec pk t (hv t ht)) h
          (by
            intro us hus
            rw [listOrTuple_like ha] at hus; cases hus; exact hg)
        rw [listOrTuple_like ha] at h1
        cases h1
        refine ⟨xs, h3, ?_⟩
        cases pk
        · exact congrArg layout (elems_std ts _ (fun t ht => encOf_good false t (hv t ht)))
        · exact elems_packed ts _ (fun t ht => encOf_good true t (hv t ht))
    · obtain ⟨e, he, _⟩ := h2 pk
      simp only [Registry.encode, asListLike_param ha, ok_bind, he, error_bind] at h
      cases h

/-- `encode` of arguments that denote values. -/
theorem encode_denote [Ext] (pk : Bool) {types : List TypeStr} {ts : List Ty}
    (h : List.Forall₂ Supported types ts) {args : PyVal} {vs : List PyVal} {xs : List Val}
    (ha : listOrTuple? args = some vs) (hd : denoteAll ts vs = some xs)
    (hl : (encTop pk ts xs).length < 2 ^ 256) :
    (regBy pk).encode types args = .ok (encTop pk ts xs) := by
  rw [encode_eq pk h ha]
  exact (top_good pk (supportedAll_valid h)).enc args (.seq xs)
    (denote_tuple.2 ⟨vs, xs, listOrTuple_like ha, hd, rfl⟩) hl

/-! ## Decoding -/

theorem DecGood.of_eq {t : Ty} {d d' : Decoder} {strict : Bool} (h : DecGood t d strict)
    (h1 : d'.isDynamic = d.isDynamic) (h2 : d'.isHeadTail = d.isHeadTail)
    (h3 : d'.arraySize = d.arraySize) (h4 : ∀ fl st, d'.call fl st = d.call fl st) :
    DecGood t d' strict where
  isDyn := by rw [h1, h.isDyn]
  notHT := by rw [h2, h.notHT]
  size := by rw [h3, h.size]
  run fl st a b c := by rw [h4]; exact h.run fl st a b c

theorem DecGood.setStrict {t : Ty} {d : Decoder} {strict : Bool} (h : DecGood t d strict)
    {b : Bool} (hd : d.strict = .own b) (hr : ∀ fl s s' st, d.run fl s st = d.run fl s' st)
    (strict' : Bool) : DecGood t (d.setStrict strict') strict := by
  unfold Decoder.setStrict
  split
  · rw [hd]
    exact h.of_eq rfl rfl rfl (fun _ _ => hr _ _ _ _)
  · exact h

theorem decOf_strict (t : Ty) (strict : Bool) : DecGood t ((decOf t).setStrict strict) strict := by
  cases t with
  | uint n => exact uintD_good n strict
  | int n => exact sintD_good n strict
  | address => exact addressD_good strict
  | bool => exact boolD_good strict
  | ufixed m n => exact ufixedD_good m n strict
  | fixed m n => exact sfixedD_good m n strict
  | bytesM m => exact bytesMD_good m strict
  | bytes => exact bytesD_good strict
  | string => exact stringD_good strict
  | sized k t => exact (sizedD_good (decOf_good t)).setStrict rfl (fun _ _ _ _ => rfl) strict
  | dyn t => exact (dynD_good (decOf_good t)).setStrict rfl (fun _ _ _ _ => rfl) strict
  | tuple ts =>
    refine (tupleD_good ?_).setStrict rfl (fun _ _ _ _ => rfl) strict
    induction ts with
    | nil => exact .nil
    | cons t ts ih => exact .cons (decOf_good t) ih

theorem decode_eq [Ext] {types : List TypeStr} {ts : List Ty} (h : List.Forall₂ Supported types ts)
    {data : PyVal} {d : Bytes} (hd : asBytes? data = some d) (hl : d.length ≤ ssizeMax)
    (strict : Bool) :
    decode types data strict = (posTop strict ts d >>= fun xs => .ok (.tuple (toPyAll ts xs))) := by
  have hm : ∃ ds, mapPyM (fun s => getDecoder defaultRegistry s strict) types = .ok ds ∧
      List.Forall₂ (fun t d => DecGood t d strict) ts ds := by
    refine ⟨ts.map fun t => (decOf t).setStrict strict, ?_, ?_⟩
    · rw [mapPyM_ok]
      induction h with
      | nil => exact .nil
      | cons h1 _ ih => exact .cons (getDecoder_supported h1 strict) ih
    · clear h
      induction ts with
      | nil => exact .nil
      | cons t ts ih => exact .cons (decOf_strict t strict) ih
  obtain ⟨ds, h1, h2⟩ := hm
  simp only [decode, Registry.decode, Registry.decodeWith, validateBytesParam, hd, ok_bind, h1]
  have hr : ∀ fl st, (mkTupleD ds).call fl st = tupleDecode fl (ds.map wrapDyn) st := fun _ _ => rfl
  rw [hr]
  rcases tupleDecode_spec h2 (fun _ => true) (Stream.init d) hl (by simp [Stream.init]) with
    ⟨xs, h3, _, h4⟩ | ⟨e, h3, h4⟩
  · have h3' : posTop strict ts d = .ok xs := by
      rw [← h3]; simp only [posTop, Stream.init, Nat.zero_add]
    rw [h4, h3']
    rfl
  · have h3' : posTop strict ts d = .error e := by
      rw [← h3]; simp only [posTop, Stream.init, Nat.zero_add]
    rw [h4, h3']
    rfl

/-- A successful `decode`. -/
theorem decode_iff [Ext] {types : List TypeStr} {data : PyVal} {d : Bytes} {strict : Bool}
    (hd : asBytes? data = some d) (hl : d.length ≤ ssizeMax) {v : PyVal} :
    decode types data strict = .ok v ↔ ∃ ts xs, List.Forall₂ Supported types ts ∧
      ReadsArgs codeHead strict ts d xs ∧ v = .tuple (toPyAll ts xs) := by
  rcases supportedAll_or types with ⟨ts, hts⟩ | ⟨h1, _, h3⟩
  · rw [decode_eq hts hd hl strict]
    simp only [bind_eq_ok]
    constructor
    · rintro ⟨xs, h1, h2⟩
      injection h2 with h2
      exact ⟨ts, xs, hts, (posTop_iff (supportedAll_valid hts) strict hl).1 h1, h2.symm⟩
    · rintro ⟨ts', xs, h1, h2, rfl⟩
      obtain rfl := supportedAll_unique hts h1
      exact ⟨xs, (posTop_iff (supportedAll_valid hts) strict hl).2 h2, rfl⟩
  · constructor
    · intro h
      obtain ⟨e, he, _⟩ := h3 strict
      simp only [decode, Registry.decode, Registry.decodeWith, validateBytesParam, hd, ok_bind, he,
        error_bind] at h
      cases h
    · rintro ⟨ts, _, h, _⟩
      exact absurd h (h1 ts)

end EthAbi
