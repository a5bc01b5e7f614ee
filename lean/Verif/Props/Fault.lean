import Verif.Lemmas.Fault
import Verif.Props.Examples

/-!
# C73: which exception a wrong argument leads to, and which part of it decides

`fault t v` is the first thing wrong with `v` as a value of type `t`: the part of `v` at fault, and the kind of fault.  `raised` is
the exception for a fault.
-/
namespace EthAbi
open Spec

/-- **C73.**  `is_encodable` looks for the first fault: there is none and it says yes; or there is one, of a kind that is an
`EncodingError`, and it says no; any other exception comes out.  `is_encodable_packed` says the same. -/
theorem C73_isEncodable [Ext] {s : TypeStr} {t : Ty} (h : Supported s t) (v : PyVal) :
    (fault t v = none → isEncodable s v = .ok true ∧ isEncodablePacked s v = .ok true) ∧
    (∀ f, fault t v = some f → (raised f).isEncodingError = true →
      isEncodable s v = .ok false ∧ isEncodablePacked s v = .ok false) ∧
    (∀ f, fault t v = some f → (raised f).isEncodingError = false →
      isEncodable s v = .error (raised f) ∧ isEncodablePacked s v = .error (raised f)) := by
  have hv := supported_valid h
  have key : ∀ pk, (fault t v = none → (regBy pk).isEncodable s v = .ok true) ∧
      (∀ f, fault t v = some f → (raised f).isEncodingError = true → (regBy pk).isEncodable s v = .ok false) ∧
      (∀ f, fault t v = some f → (raised f).isEncodingError = false →
        (regBy pk).isEncodable s v = .error (raised f)) := by
    intro pk
    have hval := validate_fault pk t hv v
    refine ⟨fun hf => ?_, fun f hf he => ?_, fun f hf he => ?_⟩ <;> rw [hf] at hval <;>
      rcases isEncodable_supported pk h v with ⟨h1, h2⟩ | ⟨e, h1, h3, h2⟩ | ⟨h1, _, h2⟩ | ⟨h1, _, h2⟩ <;>
      rw [hval] at h1 <;> simp only [faulted, Except.error.injEq, reduceCtorEq] at h1
    · exact h2
    · exact h2
    · rw [h1] at he; cases he
    · rw [h1] at he; cases he
    · rw [h1, h3] at he; cases he
    · rw [h1]; exact h2
    · rw [h1]; exact h2
  exact ⟨fun hf => ⟨(key false).1 hf, (key true).1 hf⟩, fun f hf he => ⟨(key false).2.1 f hf he, (key true).2.1 f hf he⟩,
    fun f hf he => ⟨(key false).2.2 f hf he, (key true).2.2 f hf he⟩⟩

/-- **C73.**  What `encode` and `encode_packed` do with every list of arguments for supported types: the first fault decides the
exception; where there is none, `UnicodeEncodeError` is left for texts with a lone surrogate; and everything else is encoded. -/
theorem C73_encode [Ext] {types : List TypeStr} {ts : List Ty} (hT : Names types ts) {args : PyVal} {vs : List PyVal}
    (ha : IsListOf args vs) (hw : 128 * weight args < 2 ^ 256) :
    (∀ f, fault (.tuple ts) args = some f →
      encode types args = .error (raised f) ∧ encodePacked types args = .error (raised f)) ∧
    (fault (.tuple ts) args = none → ¬ NoSurrogatesAll vs →
      encode types args = .error .unicodeEncodeError ∧ encodePacked types args = .error .unicodeEncodeError) ∧
    (fault (.tuple ts) args = none → NoSurrogatesAll vs →
      (∃ b, encode types args = .ok b) ∧ ∃ b, encodePacked types args = .ok b) := by
  have hv := supportedAll_valid hT
  have hval : ∀ pk, tupleValidate (encsOf pk ts) args = faulted (fault (.tuple ts) args) := by
    intro pk
    have := tuple_fault hv (fun t ht v => validate_fault false t (hv t ht) v) args
    cases pk
    · exact this
    · rw [tupleValidate_packed hv (fun t ht => validate_packed t (hv t ht)), this]
  have he : ∀ pk, (regBy pk).encode types args = tupleEncode (encsOf pk ts) args := fun pk =>
    encode_eq pk hT (isListOf_iff.1 ha)
  have hns := noSurrogates_list (isListOf_like ha)
  have key : ∀ pk, (∀ f, fault (.tuple ts) args = some f → (regBy pk).encode types args = .error (raised f)) ∧
      (fault (.tuple ts) args = none → ¬ NoSurrogatesAll vs →
        (regBy pk).encode types args = .error .unicodeEncodeError) ∧
      (fault (.tuple ts) args = none → NoSurrogatesAll vs → ∃ b, (regBy pk).encode types args = .ok b) := by
    intro pk
    have tot : fault (.tuple ts) args = none → _ := fun hf =>
      (top_good pk hv).total args ((hval pk).trans (by rw [hf]; rfl))
    refine ⟨fun f hf => ?_, fun hf hs => ?_, fun hf hs => ?_⟩
    · rw [he, tupleEncode, hval, hf]
      rfl
    · rcases tot hf with ⟨b, hb, _⟩ | ⟨h1, _⟩ | ⟨_, _, _, h1⟩
      · exact absurd (hns.1 (tuple_noSurrogates (fun t ht => call_noSurrogates pk t (hv t ht)) hb)) hs
      · rw [he]; exact h1
      · omega
    · rcases tot hf with ⟨b, hb, _⟩ | ⟨_, h1⟩ | ⟨_, _, _, h1⟩
      · exact ⟨b, by rw [he]; exact hb⟩
      · exact absurd (hns.2 hs) h1
      · omega
  exact ⟨fun f hf => ⟨(key false).1 f hf, (key true).1 f hf⟩, fun hf hs => ⟨(key false).2.1 hf hs, (key true).2.1 hf hs⟩,
    fun hf hs => ⟨(key false).2.2 hf hs, (key true).2.2 hf hs⟩⟩

/-! ## The first argument that is wrong decides -/

theorem fault_of_not [Ext] {s : TypeStr} {t : Ty} (h : Supported s t) {v : PyVal} (hv : isEncodable s v ≠ .ok true) :
    ∃ f, fault t v = some f := by
  cases hf : fault t v with
  | none => exact absurd ((C73_isEncodable h v).1 hf).1 hv
  | some f => exact ⟨f, rfl⟩

theorem no_fault_of [Ext] {s : TypeStr} {t : Ty} (h : Supported s t) {v : PyVal} (hv : isEncodable s v = .ok true) :
    fault t v = none := by
  cases hf : fault t v with
  | none => rfl
  | some f =>
    cases he : (raised f).isEncodingError with
    | true => rw [((C73_isEncodable h v).2.1 f hf he).1] at hv; cases hv
    | false => rw [((C73_isEncodable h v).2.2 f hf he).1] at hv; cases hv

theorem encode_fault [Ext] (pk : Bool) {s : TypeStr} {t : Ty} (h : Supported s t) {v : PyVal} {f : PyVal × Exc}
    (hf : fault t v = some f) : (regBy pk).encode [s] (.list [v]) = .error (raised f) := by
  rw [encode_one pk h, validate_fault pk t (supported_valid h), hf]
  rfl

theorem faultAny_first [Ext] {pre post : List TypeStr} {s : TypeStr} {us ws : List PyVal} {v : PyVal} {ts : List Ty}
    (hT : Names (pre ++ s :: post) ts) (hok : List.Forall₂ (fun s u => isEncodable s u = .ok true) pre us) :
    ∃ t, Supported s t ∧ ∀ f, fault t v = some f → faultAny ts (us ++ v :: ws) = some f := by
  induction hok generalizing ts with
  | nil =>
    cases hT with
    | cons h _ => exact ⟨_, h, fun f hf => by simp [faultAny, hf]⟩
  | cons h1 _ ih =>
    cases hT with
    | cons h h' =>
      obtain ⟨t, h2, h3⟩ := ih h'
      exact ⟨t, h2, fun f hf => by simp [faultAny, no_fault_of h h1, h3 f hf]⟩

/-- **C73.**  The exception for a list of arguments is the exception for the first of them that `is_encodable` does not say yes to,
whatever comes after it. -/
theorem C73_first [Ext] {pre post : List TypeStr} {s : TypeStr} {us ws : List PyVal} {v : PyVal} {ts : List Ty}
    (hT : Names (pre ++ s :: post) ts) (hok : List.Forall₂ (fun s u => isEncodable s u = .ok true) pre us)
    (hbad : isEncodable s v ≠ .ok true) (hlen : post.length = ws.length) {args : PyVal}
    (ha : IsListOf args (us ++ v :: ws)) :
    ∃ e, encode (pre ++ s :: post) args = .error e ∧ encode [s] (.list [v]) = .error e ∧
      encodePacked (pre ++ s :: post) args = .error e ∧ encodePacked [s] (.list [v]) = .error e := by
  obtain ⟨t, ht, hfirst⟩ := faultAny_first (v := v) (ws := ws) hT hok
  obtain ⟨f, hf⟩ := fault_of_not ht hbad
  have hv := supportedAll_valid hT
  have hn : (us ++ v :: ws).length = ts.length := by
    have h1 : (pre ++ s :: post).length = ts.length := hT.length_eq
    have h2 := hok.length_eq
    simp only [List.length_append, List.length_cons] at *
    omega
  have hft : fault (.tuple ts) args = some f := by
    rw [fault, isListOf_like ha]
    simp only
    rw [if_pos hn, hfirst f hf]
  have key : ∀ pk, (regBy pk).encode (pre ++ s :: post) args = .error (raised f) := by
    intro pk
    have := tuple_fault hv (fun t ht v => validate_fault false t (hv t ht) v) args
    have hval : tupleValidate (encsOf pk ts) args = faulted (fault (.tuple ts) args) := by
      cases pk
      · exact this
      · rw [tupleValidate_packed hv (fun t ht => validate_packed t (hv t ht)), this]
    rw [encode_eq pk hT (isListOf_iff.1 ha)]
    show tupleEncode _ _ = _
    rw [tupleEncode, hval, hft]
    rfl
  exact ⟨raised f, key false, encode_fault false ht hf, key true, encode_fault true ht hf⟩

theorem findSome_first [Ext] {t : Ty} {us ws : List PyVal} {v : PyVal} {f : PyVal × Exc} (hok : ∀ u ∈ us, fault t u = none)
    (hf : fault t v = some f) : (us ++ v :: ws).findSome? (fault t) = some f := by
  rw [List.findSome?_append, List.findSome?_eq_none_iff.2 hok, List.findSome?_cons, hf]
  rfl

/-- **C73.**  The exception for an array, of any size, is the exception for its first element that `is_encodable` does not say yes
to. -/
theorem C73_element [Ext] {s arr : TypeStr} {t : Ty} (h : Supported s t)
    (harr : Supported arr (.dyn t) ∨ ∃ k, Supported arr (.sized k t)) {us ws : List PyVal} {v a : PyVal}
    (hok : ∀ u ∈ us, isEncodable s u = .ok true) (hbad : isEncodable s v ≠ .ok true) (ha : IsSeqOf a (us ++ v :: ws)) :
    ∃ e, encode [arr] (.list [a]) = .error e ∧ encode [s] (.list [v]) = .error e ∧
      encodePacked [arr] (.list [a]) = .error e ∧ encodePacked [s] (.list [v]) = .error e := by
  obtain ⟨f, hf⟩ := fault_of_not h hbad
  have hfs := findSome_first (ws := ws) (fun u hu => no_fault_of h (hok u hu)) hf
  have ha := isSeqOf_iff.1 ha
  rcases harr with harr | ⟨k, harr⟩
  · have hfa : fault (.dyn t) a = some f := by simp only [fault, ha, hfs]
    exact ⟨_, encode_fault false harr hfa, encode_fault false h hf, encode_fault true harr hfa, encode_fault true h hf⟩
  · have hfa : fault (.sized k t) a = some f := by simp only [fault, ha, hfs, Option.or]
    exact ⟨_, encode_fault false harr hfa, encode_fault false h hf, encode_fault true harr hfa, encode_fault true h hf⟩

/-- **C73.**  The exception for a tuple with the right number of components is the exception for the first of them that `is_encodable`
does not say yes to. -/
theorem C73_component [Ext] {tup : TypeStr} {pre post : List TypeStr} {s : TypeStr} {us ws : List PyVal} {v a : PyVal}
    {ts : List Ty} (htup : Supported tup (.tuple ts)) (hT : Names (pre ++ s :: post) ts)
    (hok : List.Forall₂ (fun s u => isEncodable s u = .ok true) pre us) (hbad : isEncodable s v ≠ .ok true)
    (hlen : post.length = ws.length) (ha : IsSeqOf a (us ++ v :: ws)) :
    ∃ e, encode [tup] (.list [a]) = .error e ∧ encode [s] (.list [v]) = .error e ∧
      encodePacked [tup] (.list [a]) = .error e ∧ encodePacked [s] (.list [v]) = .error e := by
  obtain ⟨t, ht, hfirst⟩ := faultAny_first (v := v) (ws := ws) hT hok
  obtain ⟨f, hf⟩ := fault_of_not ht hbad
  have hn : (us ++ v :: ws).length = ts.length := by
    have h1 : (pre ++ s :: post).length = ts.length := hT.length_eq
    have h2 := hok.length_eq
    simp only [List.length_append, List.length_cons] at *
    omega
  have hft : fault (.tuple ts) a = some f := by
    rw [fault, isSeqOf_iff.1 ha]
    simp only
    rw [if_pos hn, hfirst f hf]
  exact ⟨_, encode_fault false htup hft, encode_fault false ht hf, encode_fault true htup hft, encode_fault true ht hf⟩

/-- **C73, number of items.**  A tuple with the wrong number of components is out of bounds, whatever the components are; an array of
fixed size with the wrong number of elements is out of bounds if all its elements are encodable. -/
theorem C73_count [Ext] :
    (∀ {tup : TypeStr} {ts : List Ty} {a : PyVal} {vs : List PyVal}, Supported tup (.tuple ts) → IsSeqOf a vs →
      vs.length ≠ ts.length → encode [tup] (.list [a]) = .error (quoting a .valueOutOfBounds)) ∧
    (∀ {arr s : TypeStr} {k : Nat} {t : Ty} {a : PyVal} {vs : List PyVal}, Supported s t → Supported arr (.sized k t) →
      IsSeqOf a vs → (∀ u ∈ vs, isEncodable s u = .ok true) → vs.length ≠ k →
      encode [arr] (.list [a]) = .error (quoting a .valueOutOfBounds)) := by
  refine ⟨fun {tup ts a vs} h ha hn => ?_, fun {arr s k t a vs} hs h ha hok hn => ?_⟩
  · have hf : fault (.tuple ts) a = some (a, .valueOutOfBounds) := by
      rw [fault, isSeqOf_iff.1 ha]
      simp only
      rw [if_neg hn]
    exact (encode_fault false h hf).trans (by rw [raised, if_neg (by simp)])
  · have hf : fault (.sized k t) a = some (a, .valueOutOfBounds) := by
      rw [fault, isSeqOf_iff.1 ha]
      simp only
      rw [List.findSome?_eq_none_iff.2 (fun u hu => no_fault_of hs (hok u hu)), if_neg hn]
      rfl
    exact (encode_fault false h hf).trans (by rw [raised, if_neg (by simp)])

/-! ## Kinds of faults -/

theorem int_residue (i : Int) (n : Nat) :
    decValue (i, 0) - (⌊decValue (i, 0) * 10 ^ n⌋ : ℚ) * 10 ^ (-(n : Int)) = 0 := by
  have h1 : decValue (i, 0) * 10 ^ n = ((i * 10 ^ n : Int) : ℚ) := by simp [decValue]
  rw [h1, Int.floor_intCast]
  have h2 : (10 : ℚ) ^ n * 10 ^ (-(n : Int)) = 1 := by
    rw [← zpow_natCast, ← zpow_add₀ (by norm_num)]; simp
  push_cast
  rw [mul_assoc, h2]
  simp [decValue]

/-- What can be said of a fault. -/
def FaultKind (u : PyVal) (e : Exc) : Prop :=
  e = .encodingTypeError ∨ e = .valueOutOfBounds ∨ (e = .illegalValue ∧ ∃ d, u = .dec d) ∨ (e = .typeError ∧ OddNumber u)

theorem fixedFault_kind {lo hi : Int} {n : Nat} {v : PyVal} {e : Exc} (h : fixedFault lo hi n v = some e) :
    FaultKind v e := by
  have num : ∀ x, (∃ i, x = ((i, 0) : Dec10)) ∨ (∃ d, v = .dec d) →
      (if decValue x < lo * 10 ^ (-(n : Int)) ∨ hi * 10 ^ (-(n : Int)) < decValue x then some .valueOutOfBounds
        else if 0 < decValue x ∧
            10 ^ (-1000997 : Int) / 2 < decValue x - ⌊decValue x * 10 ^ n⌋ * 10 ^ (-(n : Int)) then some Exc.illegalValue
        else none) = some e → FaultKind v e := by
    intro x hx h
    split at h
    · cases h; exact .inr (.inl rfl)
    · split at h
      · next h1 =>
        cases h
        rcases hx with ⟨i, rfl⟩ | hd
        · rw [int_residue] at h1
          have := ten_zpow_pos (-1000997)
          exact absurd h1.2 (by linarith)
        · exact .inr (.inr (.inl ⟨rfl, hd⟩))
      · cases h
  cases v with
  | int i => exact num _ (.inl ⟨_, rfl⟩) h
  | bool b => exact num _ (.inl ⟨_, rfl⟩) h
  | dec d =>
    cases d with
    | fin m e => exact num _ (.inr ⟨_, rfl⟩) h
    | nan => cases h; exact .inr (.inr (.inl ⟨rfl, _, rfl⟩))
    | inf b => cases h; exact .inr (.inr (.inl ⟨rfl, _, rfl⟩))
  | complex => cases h; exact .inr (.inr (.inr ⟨rfl, .inl rfl⟩))
  | fraction a d =>
    simp only [fixedFault] at h
    split at h
    · cases h; exact .inr (.inl rfl)
    · cases h; exact .inr (.inr (.inr ⟨rfl, .inr ⟨_, _, rfl⟩⟩))
  | _ => cases h; exact .inl rfl

theorem leafFault_kind [Ext] {t : Ty} {v : PyVal} {e : Exc} (h : leafFault t v = some e) : FaultKind v e := by
  unfold leafFault at h
  repeat' split at h
  all_goals first
    | exact fixedFault_kind h
    | (cases h; done)
    | (cases h; exact .inl rfl)
    | (cases h; exact .inr (.inl rfl))

/-- **C73.**  The part at fault is the value itself or something inside it.  It is of the wrong type, or out of bounds, or an illegal
`Decimal`; or it is a `complex` or a `Fraction` given for a fixed-point number. -/
theorem C73_part [Ext] (t : Ty) : ∀ (v u : PyVal) (e : Exc), fault t v = some (u, e) → Inside u v ∧ FaultKind u e := by
  have find : ∀ {t : Ty} {vs : List PyVal} {v u : PyVal} {e : Exc},
      (∀ (v u : PyVal) (e : Exc), fault t v = some (u, e) → Inside u v ∧ FaultKind u e) → asListLike? v = some vs →
      vs.findSome? (fault t) = some (u, e) → Inside u v ∧ FaultKind u e := by
    intro t vs v u e ih hv h
    obtain ⟨w, hw, hf⟩ := List.exists_of_findSome?_eq_some h
    exact ⟨.item (isSeqOf_iff.2 hv) hw (ih _ _ _ hf).1, (ih _ _ _ hf).2⟩
  refine Spec.Ty.ind (P := fun t => ∀ (v u : PyVal) (e : Exc), fault t v = some (u, e) → Inside u v ∧ FaultKind u e)
    ?_ ?_ ?_ ?_ ?_ ?_ ?_ ?_ ?_ ?_ ?_ ?_ t
  iterate 9
    intros
    rename_i h
    simp only [fault, Option.map_eq_some_iff, Prod.mk.injEq] at h
    obtain ⟨e', h1, rfl, rfl⟩ := h
    exact ⟨.self, leafFault_kind h1⟩
  · intro k t ih v u e h
    rw [fault] at h
    split at h
    · cases h; exact ⟨.self, .inl rfl⟩
    · next vs hv =>
      rcases Option.or_eq_some_iff.1 h with h | ⟨_, h⟩
      · exact find ih hv h
      · split at h
        · cases h
        · cases h; exact ⟨.self, .inr (.inl rfl)⟩
  · intro t ih v u e h
    rw [fault] at h
    split at h
    · cases h; exact ⟨.self, .inl rfl⟩
    · next vs hv => exact find ih hv h
  · intro ts ih v u e h
    rw [fault] at h
    split at h
    · cases h; exact ⟨.self, .inl rfl⟩
    · next vs hv =>
      split at h
      · have key : ∀ (ts : List Ty) (vs : List PyVal),
            (∀ t ∈ ts, ∀ (v u : PyVal) (e : Exc), fault t v = some (u, e) → Inside u v ∧ FaultKind u e) →
            faultAny ts vs = some (u, e) → ∃ w ∈ vs, Inside u w ∧ FaultKind u e := by
          intro ts
          induction ts with
          | nil => intro vs _ h; simp [faultAny] at h
          | cons t ts ih2 =>
            intro vs ih h
            cases vs with
            | nil => simp [faultAny] at h
            | cons w ws =>
              rw [faultAny] at h
              rcases Option.or_eq_some_iff.1 h with h | ⟨_, h⟩
              · exact ⟨w, by simp, ih t (by simp) _ _ _ h⟩
              · obtain ⟨w', hw', h'⟩ := ih2 ws (fun t ht => ih t (by simp [ht])) h
                exact ⟨w', by simp [hw'], h'⟩
        obtain ⟨w, hw, h1, h2⟩ := key ts vs ih h
        exact ⟨.item (isSeqOf_iff.2 hv) hw h1, h2⟩
      · cases h; exact ⟨.self, .inr (.inl rfl)⟩

theorem fixedFault_none {lo hi : Int} {n : Nat} {v : PyVal} : fixedFault lo hi n v = none ↔
    ∃ x, number? v = some x ∧ lo * 10 ^ (-(n : Int)) ≤ decValue x ∧ decValue x ≤ hi * 10 ^ (-(n : Int)) ∧
      (0 < decValue x → decValue x - ⌊decValue x * 10 ^ n⌋ * 10 ^ (-(n : Int)) ≤ 10 ^ (-1000997 : Int) / 2) := by
  have num : ∀ x, number? v = some x →
      fixedFault lo hi n v = (if decValue x < lo * 10 ^ (-(n : Int)) ∨ hi * 10 ^ (-(n : Int)) < decValue x then
          some .valueOutOfBounds
        else if 0 < decValue x ∧
            10 ^ (-1000997 : Int) / 2 < decValue x - ⌊decValue x * 10 ^ n⌋ * 10 ^ (-(n : Int)) then some Exc.illegalValue
        else none) := by
    intro x hx
    cases v with
    | int i => cases hx; rfl
    | bool b => cases hx; rfl
    | dec d => cases d <;> cases hx; rfl
    | _ => cases hx
  constructor
  · intro h
    cases hx : number? v with
    | none =>
      exfalso
      cases v with
      | dec d => cases d <;> first | (cases hx; done) | cases h
      | fraction a d =>
        simp only [fixedFault] at h
        split at h <;> cases h
      | _ => first | (cases hx; done) | cases h
    | some x =>
      rw [num x hx] at h
      split at h
      · cases h
      · next h1 =>
        split at h
        · cases h
        · next h2 =>
          rw [not_or, not_lt, not_lt] at h1
          exact ⟨x, rfl, h1.1, h1.2, fun h0 => not_lt.1 fun h3 => h2 ⟨h0, h3⟩⟩
  · rintro ⟨x, hx, h1, h2, h3⟩
    rw [num x hx, if_neg (by rw [not_or, not_lt, not_lt]; exact ⟨h1, h2⟩), if_neg (fun h => absurd (h3 h.1) (not_le.2 h.2))]

/-- **C07, what is accepted exactly.**  `ufixedMxN` and `fixedMxN` accept the numbers in range that are negative, or exceed a
multiple of `10^-N` by at most half of `10^-1000997`; that is, of the positive numbers only the multiples themselves, unless the
number is written with more than a million decimal places. -/
theorem C07_exact [Ext] {s : TypeStr} {t : Ty} {n : Nat} {lo hi : Int} (h : Supported s t)
    (ht : (∃ m, t = .ufixed m n ∧ lo = 0 ∧ hi = 2 ^ m - 1) ∨
      ∃ m, t = .fixed m n ∧ lo = -(2 ^ (m - 1)) ∧ hi = 2 ^ (m - 1) - 1) (v : PyVal) :
    (∃ b, encode [s] (.list [v]) = .ok b) ↔
      ∃ x, number? v = some x ∧ lo * 10 ^ (-(n : Int)) ≤ decValue x ∧ decValue x ≤ hi * 10 ^ (-(n : Int)) ∧
        (0 < decValue x → decValue x - ⌊decValue x * 10 ^ n⌋ * 10 ^ (-(n : Int)) ≤ 10 ^ (-1000997 : Int) / 2) := by
  have hf : fault t v = (fixedFault lo hi n v).map fun e => (v, e) := by
    rcases ht with ⟨m, rfl, rfl, rfl⟩ | ⟨m, rfl, rfl, rfl⟩ <;> rfl
  rw [← fixedFault_none]
  constructor
  · rintro ⟨b, hb⟩
    cases hff : fixedFault lo hi n v with
    | none => rfl
    | some e =>
      rw [hff] at hf
      have := encode_fault false h hf
      rw [show (regBy false).encode [s] (.list [v]) = .ok b from hb] at this
      cases this
  · intro hff
    rw [hff] at hf
    obtain ⟨x, hx, _⟩ := fixedFault_none.1 hff
    have hw : weight v = 1 := by
      cases v with
      | dec d => rfl
      | int i => rfl
      | bool b => rfl
      | _ => cases hx
    have hs : NoSurrogatesAll [v] := by
      refine ⟨?_, trivial⟩
      cases v with
      | dec d => trivial
      | int i => trivial
      | bool b => trivial
      | _ => cases hx
    refine ((C73_encode (.cons h .nil) (.list [v]) ?_).2.2 ?_ hs).1
    · simp [weight, weights, hw]
    · simp [fault, asListLike?, faultAny, hf]

/-- A negative number that is no multiple of the unit, and a number that exceeds one by very little. -/
example [Ext] : ∃ b, encode [t!"fixed8x1"] (.list [.dec (.fin (-15) (-2))]) = .ok b :=
  (C07_exact (n := 1) (lo := -128) (hi := 127) ⟨.fixed (m := 8) (n := 1) (by decide) (by decide) (by decide), by decide⟩
    (.inr ⟨8, rfl, by norm_num, by norm_num⟩) _).2
    ⟨(-15, -2), rfl, by norm_num [decValue], by norm_num [decValue], fun h => absurd h (by norm_num [decValue])⟩

/-! ## Examples -/

/-- The second component of the second element is the first fault; that the third element has none of the right type does not matter. -/
example : letI := Ex.ext
    encode [t!"(uint8,bytes2)[2]"] (.list [.list [.tuple [.int 255, .bytes [1]], .tuple [.int 0, .bytes [1, 2, 3]], .none]]) =
      .error .valueOutOfBounds ∧
    encode [t!"bytes2"] (.list [.bytes [1, 2, 3]]) = .error .valueOutOfBounds ∧
    encode [t!"(uint8,bytes2)[2]"] (.list [.list [.tuple [.int 255, .bytes [1]], .none, .none]]) = .error .encodingTypeError ∧
    encode [t!"(uint8,bytes2)[2]"] (.list [.list [.tuple [.int 255, .bytes [1]]]]) = .error .valueOutOfBounds ∧
    encode [t!"(uint8,bytes2)"] (.list [.tuple [.str []]]) = .error .valueOutOfBounds ∧
    encode [t!"(uint8,bytes2)"] (.list [.tuple [.str [], .int 1]]) = .error .encodingTypeError ∧
    encode [t!"uint8", t!"fixed8x1"] (.list [.int 1, .dec (.fin 15 (-2))]) = .error .illegalValue ∧
    encode [t!"uint8", t!"fixed8x1"] (.list [.int 256, .dec (.fin 15 (-2))]) = .error .valueOutOfBounds ∧
    encode [t!"uint8", t!"fixed8x1"] (.list [.int 1, .dec .nan]) = .error .illegalValue ∧
    encode [t!"uint8", t!"fixed8x1"] (.list [.int 1, .dec (.fin 128 (-1))]) = .error .valueOutOfBounds ∧
    encode [t!"uint8", t!"fixed8x1"] (.list [.int 1, .dec (.fin (-15) (-2))]) = .ok (be32 1 ++ List.replicate 32 0xff) ∧
    encode [t!"address"] (.list [.str (ofChars t!"0x00")]) = .error .encodingTypeError := by
  decide +kernel

example : letI := Ex.ext
    ∃ e, encode [t!"bool", t!"uint8", t!"string"] (.tuple [.bool true, .int (-1), .int 5]) = .error e ∧
      encode [t!"uint8"] (.list [.int (-1)]) = .error e ∧
      encodePacked [t!"bool", t!"uint8", t!"string"] (.tuple [.bool true, .int (-1), .int 5]) = .error e ∧
      encodePacked [t!"uint8"] (.list [.int (-1)]) = .error e :=
  letI := Ex.ext
  C73_first (pre := [t!"bool"]) (post := [t!"string"]) (us := [.bool true]) (ws := [.int 5])
    (.cons ⟨.bool, by decide⟩ (.cons ⟨.uint (n := 8) (by decide), by decide⟩ (.cons ⟨.string, by decide⟩ .nil)))
    (.cons (by decide +kernel) .nil) (by decide +kernel) rfl (.tuple _)

example [Ext] : fault (.dyn (.tuple [.uint 8, .string])) (.list [.tuple [.int 1, .str []], .seq [.int 256, .none]]) =
    some (.int 256, .valueOutOfBounds) := rfl

end EthAbi
